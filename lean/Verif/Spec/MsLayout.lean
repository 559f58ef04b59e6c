import Verif.Model.MsLayout
import Verif.Spec.LazyLayout
/-!
# Specification of sizes with the Microsoft compiler

Sizes of structs are specified as for the other compilers (`structOf`, `structSize`, `LTree.foot` of `Spec/LazyLayout.lean`, `Spec/Layout.lean`): plain arithmetic with sizes and
alignments, in which empty types do not occur.
-/
namespace Pigro.Ms
open Lay (Foot)

/-- What a type takes: nothing, if it is an empty class. -/
def Layout.foot (d : Layout) : Foot := if d.empty then none else some (d.size, d.align)

/-- A type that is not an empty class: it has a size, a multiple of its alignment. -/
def Layout.Proper (d : Layout) : Prop := d.empty = false ∧ 0 < d.size ∧ 0 < d.align ∧ d.align ∣ d.size

instance (d : Layout) : Decidable d.Proper := by unfold Layout.Proper; infer_instance

variable {U : Type}

/-- The user's types are anything; `std::optional` of them is not an empty class. -/
structure Types.Plain (Γ : Types U) : Prop where
  layout : ∀ u, (Γ.layout u).empty = true ∨ (Γ.layout u).Proper
  optional : ∀ u, (Γ.optional u).Proper

/-- What stands first in `uncaptured(vs...) >> f` is of size zero. -/
def begins (f : Layout) : List Layout → Bool
  | [] => f.leads
  | v :: _ => v.empty

/-- Nowhere is a value that is empty, or ends with something of size zero, followed by something that is empty or begins with something of size zero. -/
def Separated (f : Layout) : List Layout → Prop
  | [] => True
  | v :: vs => ((v.empty || v.ends) = true → begins f vs = false) ∧ Separated f vs

end Pigro.Ms
