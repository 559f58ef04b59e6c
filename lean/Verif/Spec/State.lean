import Verif.Model.State
import Verif.Spec.Offsets
import Verif.Spec.MsState
/-!
# Specification of where the state of lazy functions is stored, with the Itanium C++ ABI

What a tree consists of is the same as with the Microsoft compiler: `Ms.pieces`.
-/
namespace Pigro.Lay
open Ms (Piece)
variable {U : Type} [DecidableEq U]

/-- Nothing is stored of objects of empty types. -/
def Types.stored (Γ : Types U) (p : Piece U) : Bool := !(Γ.piece p).empty

/-- Caches are not of empty types, and alignments are powers of two. -/
structure Types.Powers (Γ : Types U) : Prop where
  layout : ∀ u, (Γ.layout u).empty = false → PowTwo (Γ.layout u).align
  optional : ∀ u, PowTwo (Γ.optional u).align ∧ (Γ.optional u).empty = false

/-- Pieces stored one after another, without overlap, inside of `size` bytes, and aligned wherever an object of alignment `align` is. -/
structure InTurn (Γ : Types U) (size align : Nat) (parts : List (Nat × Piece U)) : Prop where
  apart : parts.Pairwise fun x y => x.1 + (Γ.piece x.2).size ≤ y.1
  inside : ∀ x ∈ parts, x.1 + (Γ.piece x.2).size ≤ size
  aligned : ∀ x ∈ parts, ∀ a, align ∣ a → (Γ.piece x.2).align ∣ a + x.1

end Pigro.Lay
