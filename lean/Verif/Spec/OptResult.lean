import Verif.Model.OptResult
import Verif.Spec.Eager
/-!
# Specification: what a call does when comparisons need not be those of equality
-/
namespace Pigro.Eff.Opt
variable {D W E S O : Type}

/-- Invocations of wrapped functions. -/
def fnInvs (l : List (Ev D E S)) : List (Nat × List (Val D)) :=
  l.filterMap fun
    | .call .fn id args _ _ _ => some (id, args)
    | _ => none

/-- Comparisons of a cached value with a new one. -/
def nes (l : List (Ev D E S)) : List (Val D × Val D) :=
  l.filterMap fun
    | .ne a b _ => some (a, b)
    | _ => none

/-- What counts as changed in a call at `o2` after the whole tree was evaluated at `o1`: values never; plain functions, if `ne` tells their values apart; lazy functions, if a dependency has
changed and `ne` tells their values apart. -/
def changed (ne : Val D → Val D → Bool) (m : Meaning D W E S O) (o1 o2 : O) : Tree D W E S → Bool
  | .value _ => false
  | .function c => c.ret == .val && ne (m.eager o1 (.function c)) (m.eager o2 (.function c))
  | .lazy c deps => (deps.map (changed ne m o1 o2)).any id && (c.ret == .val && ne (m.eager o1 (.lazy c deps)) (m.eager o2 (.lazy c deps)))

/-- Invocations of wrapped functions in that call: those with a dependency that counts as changed. -/
def recalc (ne : Val D → Val D → Bool) (m : Meaning D W E S O) (o1 o2 : O) : Tree D W E S → List (Nat × List (Val D))
  | .value _ => []
  | .function _ => []
  | .lazy c deps => (deps.map (recalc ne m o1 o2)).flatten ++
      if (deps.map (changed ne m o1 o2)).any id then [(c.id, deps.map (m.eager o2))] else []

/-- Comparisons in that call: of the results of all functions that are invoked and return a value. -/
def recmp (ne : Val D → Val D → Bool) (m : Meaning D W E S O) (o1 o2 : O) : Tree D W E S → List (Val D × Val D)
  | .value _ => []
  | .function c => if c.ret = .val then [(m.eager o1 (.function c), m.eager o2 (.function c))] else []
  | .lazy c deps => (deps.map (recmp ne m o1 o2)).flatten ++
      if (deps.map (changed ne m o1 o2)).any id ∧ c.ret = .val then [(m.eager o1 (.lazy c deps), m.eager o2 (.lazy c deps))] else []

/-- What counts as changed in a first evaluation. -/
def firstFlag (neNone : Val D → Bool) (m : Meaning D W E S O) (o : O) : Tree D W E S → Bool
  | .value _ => false
  | .function c => c.ret != .val || neNone (m.eager o (.function c))
  | .lazy c deps => c.ret != .val || neNone (m.eager o (.lazy c deps))

/-- Plain functions in a tree. -/
def leaves : Tree D W E S → List (FnCode D W E S)
  | .value _ => []
  | .function c => [c]
  | .lazy _ deps => (deps.map leaves).flatten

/-- No empty optional: at every level there is a value. -/
def FullN {X : Type} : (k : Nat) → OptN X k → Prop
  | 0, _ => True
  | _ + 1, none => False
  | k + 1, some a => FullN k a

/-- Of values of a program. (The elements of tuples are compared with each other, so they do not matter.) -/
def Full {X : Type} {n : Nat} : Val (Data X n) → Prop
  | .data a => FullN a.1 a.2
  | _ => True

end Pigro.Eff.Opt
