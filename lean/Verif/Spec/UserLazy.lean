import Verif.Model.UserLazy
import Verif.Spec.Eager
/-!
# Specification: dependencies of user-defined lazy types
-/
namespace Pigro
variable {D W E S O : Type}

/-- What the user wrote: a tree of values, plain functions, user-defined lazy functions, and lazy functions over trees. -/
inductive XTree (D W E S : Type) where
  | value (v : Val D)
  | function (c : FnCode D W E S)
  | user (c : LCode D W E S)
  | lazy (c : FnCode D W E S) (deps : List (XTree D W E S))

/-- A meaning for the user's functions and lazy functions: `now c o` is the value of the latter where plain functions observe `o`; `last c s` is the value it
returned last, if any, as far as its own state `s` tells. -/
structure XMeaning (D W E S O : Type) extends Meaning D W E S O where
  now : LCode D W E S → O → Val D
  last : LCode D W E S → S → Option (Val D)

/-- Eager evaluation. -/
def XMeaning.eager (m : XMeaning D W E S O) (o : O) : XTree D W E S → Val D
  | .value v => v
  | .function c => c.ret.regularize (m.leaf c o)
  | .user c => m.now c o
  | .lazy c deps => c.ret.regularize (m.fn c (deps.map (m.eager o)))

/-- What `x()` returns. -/
def XMeaning.result (m : XMeaning D W E S O) (o : O) : XTree D W E S → Option (Val D)
  | .lazy c deps => if c.ret = .val then some (m.eager o (.lazy c deps)) else none
  | t => some (m.eager o t)

/-- A user-defined lazy function returns its present value, changes nothing others observe, and does not claim to be unchanged unless it returned the same
value last time. (It may claim to have changed whenever it likes.) -/
def XMeaning.Honest (m : XMeaning D W E S O) (c : LCode D W E S) : Prop :=
  ∀ s w, ∃ ch, (c.run s w).1 = .ok (m.now c (m.obs w), ch) ∧ m.obs (c.run s w).2.2 = m.obs w ∧
    m.last c (c.run s w).2.1 = some (m.now c (m.obs w)) ∧ (ch = false → m.last c s = some (m.now c (m.obs w)))

/-- All functions of a tree behave according to `m`, user-defined lazy functions are honest, and no tuple is the only dependency. -/
inductive XMeaning.Ok (m : XMeaning D W E S O) : XTree D W E S → Prop
  | value (v : Val D) : m.Ok (.value v)
  | function (c : FnCode D W E S) : m.LeafOk c → m.Ok (.function c)
  | user (c : LCode D W E S) : m.Honest c → m.Ok (.user c)
  | lazy (c : FnCode D W E S) (deps : List (XTree D W E S)) : m.FnOk c → (∀ t, deps = [t] → ∀ o vs, m.eager o t ≠ .tup vs) →
      (∀ t ∈ deps, m.Ok t) → m.Ok (.lazy c deps)

/-- The tree of an argument, given the trees of the variables. -/
def XArg.tree (ts : List (XTree D W E S)) : XArg D W E S → Option (XTree D W E S)
  | .value v => some (.value v)
  | .function u => if u.ret = .void then none else some (.function u.toFnCode)
  | .var i => ts[i]?
  | .user l => some (.user l.toLCode)

/-- Trees of all arguments of one construction. -/
def xargTrees (ts : List (XTree D W E S)) : List (XArg D W E S) → Option (List (XTree D W E S))
  | [] => some []
  | a :: as =>
    match a.tree ts, xargTrees ts as with
    | some t, some us => some (t :: us)
    | _, _ => none

/-- Effect of one operation on the trees of the variables. -/
def xstepTrees (ts : List (XTree D W E S)) : XOp D W E S → List (XTree D W E S)
  | .mk f deps =>
    match xargTrees ts deps with
    | some us => ts ++ [.lazy f.toFnCode us]
    | none => ts
  | .copy i =>
    match ts[i]? with
    | some t => ts ++ [t]
    | none => ts
  | _ => ts

/-- Trees of the variables after a program. -/
def xrunTrees (ts : List (XTree D W E S)) (ops : List (XOp D W E S)) : List (XTree D W E S) := ops.foldl xstepTrees ts

/-- The state a program leaves. -/
abbrev xafter [CxxData D] (g : Glue) (w : W) (ops : List (XOp D W E S)) : XState D W E S := (xrun g (XState.init w) ops).2

/-- A program without user-defined lazy functions. -/
def ArgRef.toX : ArgRef D W E S → XArg D W E S
  | .value v => .value v
  | .function u => .function u
  | .var i => .var i

/-- The same. -/
def Op.toX : Op D W E S → XOp D W E S
  | .mk f deps => .mk f (deps.map ArgRef.toX)
  | .copy i => .copy i
  | .call i => .call i
  | .poll i => .poll i
  | .poke h => .poke h

/-! ### A lazy function whose dependencies are all user-defined: the flags decide -/

/-- The only dependency, if there is one only, never returns a tuple. -/
def NoTupleAlone (cs : List (LCode D W E S)) : Prop := ∀ c, cs = [c] → ∀ s w v ch, (c.run s w).1 = .ok (v, ch) → ∀ xs, v ≠ .tup xs

/-- Poll all, from left to right, until one throws. -/
def pollUsers : List (LFn D W E S) → W → Except E (List (Val D × Bool)) × List (LFn D W E S) × W
  | [], w => (.ok [], [], w)
  | l :: ls, w =>
    match l.run l.st w with
    | (.error e, st, w1) => (.error e, { l with st := st } :: ls, w1)
    | (.ok r, st, w1) =>
      match pollUsers ls w1 with
      | (.error e, ls', w2) => (.error e, { l with st := st } :: ls', w2)
      | (.ok rs, ls', w2) => (.ok (r :: rs), { l with st := st } :: ls', w2)

/-- A function, what it depends on, and the last value. -/
structure Watch (D W E S : Type) where
  f : UFn D W E S
  ls : List (LFn D W E S)
  last : Option (Val D)

/-- Poll; without last value, or when one of the flags is set, call the function and remember what it returned, otherwise return the last value. -/
def Watch.call (x : Watch D W E S) (w : W) : Except E (Val D) × Watch D W E S × W :=
  match pollUsers x.ls w with
  | (.error e, ls, w1) => (.error e, { x with ls := ls }, w1)
  | (.ok rs, ls, w1) =>
    match x.last, rs.any (·.2) with
    | some v, false => (.ok v, { x with ls := ls }, w1)
    | _, _ =>
      match x.f.run x.f.st (rs.map (·.1)) w1 with
      | (.ok v, st, w2) => (.ok v, ⟨{ x.f with st := st }, ls, some v⟩, w2)
      | (.error e, st, w2) => (.error e, ⟨{ x.f with st := st }, ls, x.last⟩, w2)

/-- What the program sees of a call. -/
def Watch.seen (x : Watch D W E S) : Except E (Val D) → Obs D E
  | .ok v => .ret (.ok (if x.f.ret = .val then some v else none))
  | .error e => .ret (.thrown e)

/-- Calls (`none`) and outside changes of the world. -/
def Watch.run (x : Watch D W E S) (w : W) : List (Option (W → W)) → List (Obs D E) × Watch D W E S × W
  | [] => ([], x, w)
  | some h :: l => let r := x.run (h w) l
    (.unit :: r.1, r.2)
  | none :: l => let c := x.call w
    let r := c.2.1.run c.2.2 l
    (x.seen c.1 :: r.1, r.2)

/-- The same program, with the library. -/
def watchOp : Option (W → W) → XOp D W E S
  | none => .call 0
  | some h => .poke h

end Pigro
