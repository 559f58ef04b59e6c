import Verif.Model.LazyMem
/-!
# Empty types
-/
namespace Pigro.LM
variable {D W E S : Type}

/-- Callables of empty type have no state, so that calling them does not change it. -/
def Stateless (Θ : Empties D W E S) : Prop := ∀ u k, Θ.fn u = some k → ∀ vs w, (u.run u.st vs w).2.1 = u.st

/-- No constant is of empty type, if results refer to the constants themselves. (`get` makes a temporary of an element of empty type,
compressed_tuple.h:18-23; a reference to it would dangle.) -/
def ConstantsStored (Θ : Empties D W E S) (g : Glue) : Prop := g.resultByRef = true → g.valueParamByValue = false → ∀ v, Θ.val v = none

end Pigro.LM
