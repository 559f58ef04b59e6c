import Verif.Spec.Refactor
import Verif.Spec.LazyMem
/-!
# Specification: what programs show, dangling results left alone
-/
namespace Pigro.Rfc
variable {D W E S : Type}

/-- The same to be seen in the answers, the same worlds, and events of interest. -/
def LooksSeen (care : Ev D S → Bool) (x y : List (Obs D E) × State D W E S) : Prop :=
  x.1.map LM.seen = y.1.map LM.seen ∧ x.2.env.w = y.2.env.w ∧ x.2.env.log.filter care = y.2.env.log.filter care

end Pigro.Rfc
