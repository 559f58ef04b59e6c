import Verif.Model.History
/-!
# Specification of lazy functions: dependency trees and eager evaluation

What the user wrote, with no caches, flags or copies: a tree of values, plain functions, and lazy
functions over trees; and its eager evaluation.
-/
namespace Pigro
variable {D W E S : Type}

/-- What the user passed to `pigro::lazy`: constant values, plain functions, lazy functions with
their own dependencies. -/
inductive Tree (D W E S : Type) where
  | value (v : Val D)
  | function (c : FnCode D W E S)
  | lazy (c : FnCode D W E S) (deps : List (Tree D W E S))

/-- A meaning for the user's functions: the part `obs` of the world that plain functions observe, the
value `leaf c o` of plain function `c` when that part is `o`, and the value `fn c args` of a wrapped
function on its arguments. -/
structure Meaning (D W E S O : Type) where
  obs : W → O
  fn : FnCode D W E S → List (Val D) → Val D
  leaf : FnCode D W E S → O → Val D

/-- Eager evaluation: every plain function is evaluated in the current world, every wrapped function
applied to the values of its dependencies. A `void` function has the value `regular_void`. -/
def Meaning.eager {O : Type} (m : Meaning D W E S O) (o : O) : Tree D W E S → Val D
  | .value v => v
  | .function c => c.ret.regularize (m.leaf c o)
  | .lazy c deps => c.ret.regularize (m.fn c (deps.map (m.eager o)))

/-- Function `c`, used as wrapped function, is deterministic in its arguments, does not throw and does
not change what plain functions observe (it may change its own state and the rest of the world, e.g.
counters). -/
def Meaning.FnOk {O : Type} (m : Meaning D W E S O) (c : FnCode D W E S) : Prop :=
  ∀ s args w, (c.run s args w).1 = .ok (m.fn c args) ∧ m.obs (c.run s args w).2.2 = m.obs w

/-- Function `c`, used as plain function dependency, returns a value determined by the observed part
of the world, does not throw and does not change that part. -/
def Meaning.LeafOk {O : Type} (m : Meaning D W E S O) (c : FnCode D W E S) : Prop :=
  ∀ s w, (c.run s [] w).1 = .ok (m.leaf c (m.obs w)) ∧ m.obs (c.run s [] w).2.2 = m.obs w

/-- All functions of a tree behave according to `m`. -/
inductive Meaning.Ok {O : Type} (m : Meaning D W E S O) : Tree D W E S → Prop
  | value (v : Val D) : m.Ok (.value v)
  | function (c : FnCode D W E S) : m.LeafOk c → m.Ok (.function c)
  | lazy (c : FnCode D W E S) (deps : List (Tree D W E S)) :
      m.FnOk c → (∀ t ∈ deps, m.Ok t) → m.Ok (.lazy c deps)

/-- Identities of the plain functions of a tree, left to right. -/
def Tree.leafIds : Tree D W E S → List Nat
  | .value _ => []
  | .function c => [c.id]
  | .lazy _ deps => (deps.map Tree.leafIds).flatten

/-- Identities of all functions of a tree, dependencies before dependents, left to right. -/
def Tree.postIds : Tree D W E S → List Nat
  | .value _ => []
  | .function c => [c.id]
  | .lazy c deps => (deps.map Tree.postIds).flatten ++ [c.id]

/-- `s` is `t` or occurs below it. -/
inductive Tree.Within (s : Tree D W E S) : Tree D W E S → Prop
  | refl : Within s s
  | dep {d : Tree D W E S} {ds : List (Tree D W E S)} (c : FnCode D W E S) :
      d ∈ ds → Within s d → Within s (.lazy c ds)

/-- Invocations of plain functions used as dependencies, in order. -/
def depCalls : List (Ev D S) → List Nat
  | [] => []
  | .call .dep id _ _ _ :: evs => id :: depCalls evs
  | _ :: evs => depCalls evs

/-- All invocations of user functions, in order. -/
def calls : List (Ev D S) → List Nat
  | [] => []
  | .call _ id _ _ _ :: evs => id :: calls evs
  | _ :: evs => calls evs

/-- Invocations of wrapped functions, in order, with arguments. -/
def fnCalls : List (Ev D S) → List (Nat × List (Val D))
  | [] => []
  | .call .fn id args _ _ :: evs => (id, args) :: fnCalls evs
  | _ :: evs => fnCalls evs

/-- Comparisons, in order. -/
def cmps : List (Ev D S) → List (Val D × Val D)
  | [] => []
  | .cmp a b :: evs => (a, b) :: cmps evs
  | _ :: evs => cmps evs

/-- All invocations of user functions, in order: identity, own state found, own state left. -/
def runs : List (Ev D S) → List (Nat × S × S)
  | [] => []
  | .call _ id _ seen left :: evs => (id, seen, left) :: runs evs
  | _ :: evs => runs evs

/-- `Threads before rs after`: going once through a list of callables (identity, own state), each is
either left alone or invoked once; `rs` lists the invocations in that order, each finding the
callable's state and leaving the state recorded in `after`. -/
inductive Threads : List (Nat × S) → List (Nat × S × S) → List (Nat × S) → Prop
  | nil : Threads [] [] []
  | skip (c : Nat × S) {l rs l'} : Threads l rs l' → Threads (c :: l) rs (c :: l')
  | run (id : Nat) (s s' : S) {l rs l'} : Threads l rs l' →
      Threads ((id, s) :: l) ((id, s, s') :: rs) ((id, s') :: l')

/-- The trees of the variables of a program, computed from the program text alone. -/
def ArgRef.tree (ts : List (Tree D W E S)) : ArgRef D W E S → Option (Tree D W E S)
  | .value v => some (.value v)
  | .function u => if u.ret = .void then none else some (.function u.toFnCode)
  | .var i => ts[i]?

/-- Trees of all arguments of one construction. -/
def argTrees (ts : List (Tree D W E S)) :
    List (ArgRef D W E S) → Option (List (Tree D W E S))
  | [] => some []
  | a :: as =>
    match a.tree ts, argTrees ts as with
    | some t, some us => some (t :: us)
    | _, _ => none

/-- Effect of one operation on the trees of the variables. -/
def stepTrees (ts : List (Tree D W E S)) : Op D W E S → List (Tree D W E S)
  | .mk f deps =>
    match argTrees ts deps with
    | some us => ts ++ [.lazy f.toFnCode us]
    | none => ts
  | .copy i =>
    match ts[i]? with
    | some t => ts ++ [t]
    | none => ts
  | _ => ts

/-- Trees of the variables after a program. -/
def runTrees (ts : List (Tree D W E S)) (ops : List (Op D W E S)) : List (Tree D W E S) :=
  ops.foldl stepTrees ts

end Pigro
