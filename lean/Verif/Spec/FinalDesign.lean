import Verif.Spec.Eager
/-!
# Specification for the documented design: how often plain functions are polled
-/
namespace Pigro
variable {D W E S O : Type}

/-- The dependencies that have to be asked to find out whether one has changed: up to and including the first that has. -/
def askedUntil {α : Type} (changed : α → Bool) : List α → List α
  | [] => []
  | d :: ds => if changed d then [d] else d :: askedUntil changed ds

/-- Plain functions polled, in order, by a call at `o2` after the whole tree was last evaluated at `o1`, in a design that first asks for changes until one is
found, and then, if one is found, asks all dependencies for their values. Who is asked again has not changed since, and polls each of its plain functions
once. -/
def Meaning.polls [CxxData D] (m : Meaning D W E S O) (o1 o2 : O) : Tree D W E S → List Nat
  | .value _ => []
  | .function c => [c.id]
  | .lazy _ deps =>
    let changed := fun d => Val.ne (m.eager o2 d) (m.eager o1 d)
    let polls := deps.map (m.polls o1 o2)
    let n := (askedUntil changed deps).length
    if deps.any changed then (polls.take n).flatten ++ ((deps.take n).map Tree.leafIds).flatten ++ (polls.drop n).flatten else polls.flatten

/-- Number of lazy functions above the deepest plain function or value. -/
def Tree.depth : Tree D W E S → Nat
  | .value _ => 0
  | .function _ => 0
  | .lazy _ deps => (deps.map Tree.depth).foldr max 0 + 1

/-- `n` lazy functions, each depending on the next, the last on plain function `leaf`. -/
def Tree.chain (c leaf : FnCode D W E S) : Nat → Tree D W E S
  | 0 => .function leaf
  | n + 1 => .lazy c [Tree.chain c leaf n]

end Pigro
