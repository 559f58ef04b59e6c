import Verif.Spec.Eager
/-!
# Specification of lazy functions of functions that may throw
-/
namespace Pigro
variable {D W E S O : Type}

/-- A meaning for functions that may throw: as `Meaning`, but plain functions and wrapped functions have a value or an exception. -/
structure MeaningE (D W E S O : Type) where
  obs : W → O
  fn : FnCode D W E S → List (Val D) → Except E (Val D)
  leaf : FnCode D W E S → O → Except E (Val D)

mutual
/-- Eager evaluation, dependencies from left to right, stopping at the first exception. -/
def MeaningE.eager (m : MeaningE D W E S O) (o : O) : Tree D W E S → Except E (Val D)
  | .value v => .ok v
  | .function c =>
    match m.leaf c o with
    | .ok v => .ok (c.ret.regularize v)
    | .error e => .error e
  | .lazy c deps =>
    match m.eagerL o deps with
    | .error e => .error e
    | .ok vs =>
      match m.fn c vs with
      | .ok v => .ok (c.ret.regularize v)
      | .error e => .error e
/-- Several. -/
def MeaningE.eagerL (m : MeaningE D W E S O) (o : O) : List (Tree D W E S) → Except E (List (Val D))
  | [] => .ok []
  | t :: ts =>
    match m.eager o t with
    | .error e => .error e
    | .ok v =>
      match m.eagerL o ts with
      | .error e => .error e
      | .ok vs => .ok (v :: vs)
end

/-- What a call does: returns a value (nothing for a `void` function) or throws. -/
def MeaningE.result (m : MeaningE D W E S O) (o : O) (t : Tree D W E S) : Out E (Option (Val D)) :=
  match m.eager o t with
  | .error e => .thrown e
  | .ok v =>
    match t with
    | .lazy c _ => .ok (if c.ret = .val then some v else none)
    | _ => .ok (some v)

/-- All functions of a tree behave according to `m`: result or exception of a wrapped function are determined by its arguments, those of a plain
function by the observed part of the world, which none of them changes. -/
inductive MeaningE.Ok (m : MeaningE D W E S O) : Tree D W E S → Prop
  | value (v : Val D) : m.Ok (.value v)
  | function (c : FnCode D W E S) :
      (∀ s w, (c.run s [] w).1 = m.leaf c (m.obs w) ∧ m.obs (c.run s [] w).2.2 = m.obs w) → m.Ok (.function c)
  | lazy (c : FnCode D W E S) (deps : List (Tree D W E S)) :
      (∀ s args w, (c.run s args w).1 = m.fn c args ∧ m.obs (c.run s args w).2.2 = m.obs w) → (∀ t ∈ deps, m.Ok t) → m.Ok (.lazy c deps)

/-- No lazy function has a tuple-valued dependency as its only dependency. -/
inductive MeaningE.NoLone (m : MeaningE D W E S O) : Tree D W E S → Prop
  | value (v : Val D) : m.NoLone (.value v)
  | function (c : FnCode D W E S) : m.NoLone (.function c)
  | lazy (c : FnCode D W E S) (deps : List (Tree D W E S)) :
      (∀ t, deps = [t] → ∀ o vs, m.eager o t ≠ .ok (.tup vs)) → (∀ t ∈ deps, m.NoLone t) → m.NoLone (.lazy c deps)

/-- The functions of the tree behave according to `m`, no lone tuples, no dangling. -/
def TreeOkE (g : Glue) (m : MeaningE D W E S O) (t : Tree D W E S) : Prop := m.Ok t ∧ m.NoLone t ∧ g.SafeFor t

/-- The dependency is one of the marked variables. -/
def ArgRef.marked (l : List Bool) : ArgRef D W E S → Bool
  | .var i => l[i]?.getD false
  | _ => false

/-- Which variables have been evaluated with an exception as outcome, or are made from such variables. Computed from operations and their observable
results only. -/
def markStep (l : List Bool) : Op D W E S → Obs D E → List Bool
  | .mk _ deps, .unit => l ++ [deps.any (ArgRef.marked l)]
  | .copy i, .unit => l ++ [l[i]?.getD false]
  | .call i, .ret (.thrown _) => l.set i true
  | .poll i, .polled (.thrown _) => l.set i true
  | _, _ => l

/-- `markStep` over a whole program and its results. -/
def marks (l : List Bool) : List (Op D W E S) → List (Obs D E) → List Bool
  | op :: ops, ob :: obs => marks (markStep l op ob) ops obs
  | _, _ => l

end Pigro
