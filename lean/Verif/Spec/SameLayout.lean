import Verif.Spec.State
/-!
# Specification: the user's types take the same with two compilers
-/
namespace Pigro.Lay
variable {U : Type}

/-- The types of the user, and `std::optional` of them, have the same sizes and alignments with two compilers (one following the Itanium C++ ABI, the other one Microsoft's), and the same of them are empty. -/
structure Alike (Γ : Types U) (Γ' : Ms.Types U) : Prop where
  layout : ∀ u, (Γ.layout u).foot = (Γ'.layout u).foot
  optional : ∀ u, (Γ.optional u).foot = (Γ'.optional u).foot

end Pigro.Lay
