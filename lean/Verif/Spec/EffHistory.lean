import Verif.Model.LazyEff
import Verif.Spec.Throwing
/-!
# Specification: user-defined comparisons and copies that may throw
-/
namespace Pigro.Eff
variable {D W E S O : Type}

/-- If `operator!=` says that two values do not differ, they are the same. It may throw, and it may say that they differ although they are the same; which of these happens may depend on the world. -/
def Ops.Sound (ops : Ops D W E) : Prop := ∀ a b w, (ops.ne a b w).1 = .ok false → a = b

/-- Comparisons and copies, whether they throw or not, do not change what plain functions observe of the world. (They may count, allocate, log.) -/
def Ops.Unobserved (ops : Ops D W E) (obs : W → O) : Prop :=
  (∀ a b w, obs (ops.ne a b w).2 = obs w) ∧ ∀ old new w, obs (ops.store old new w).2.2 = obs w

/-- The last thing that happened is that a comparison or a copy threw `e`. -/
def Fault (evs : List (Ev D E S)) (e : E) : Prop :=
  ∃ before, (∃ a b, evs = before ++ [.ne a b (.error e)]) ∨ ∃ old new, evs = before ++ [.store old new (.error e)]

end Pigro.Eff
