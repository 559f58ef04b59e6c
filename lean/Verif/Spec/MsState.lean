import Verif.Model.MsState
import Verif.Spec.MsOffsets
/-!
# Specification of where the state of lazy functions is stored
-/
namespace Pigro.Ms
open Lay (LTree)
variable {U : Type}

mutual
/-- What a lazy function consists of, its cache first, then its function, then what its dependencies consist of. -/
def pieces : LTree U → List (Piece U)
  | .value v => [.value v]
  | .function f res => [.cache (some res), .function f, .dummy]
  | .lazy f res deps => .cache res :: .function f :: piecesList deps
/-- Likewise for several. -/
def piecesList : List (LTree U) → List (Piece U)
  | [] => []
  | t :: ts => pieces t ++ piecesList ts
end

/-- Nothing is stored of objects of empty types. -/
def Types.stored (Γ : Types U) (p : Piece U) : Bool := !(Γ.piece p).empty

/-- Alignments are powers of two. -/
structure Types.Aligned (Γ : Types U) : Prop where
  layout : ∀ u, (Γ.layout u).empty = false → Pow2 (Γ.layout u).align
  optional : ∀ u, Pow2 (Γ.optional u).align

/-- Pieces stored one after another, without overlap, inside of `size` bytes, and aligned wherever an object of alignment `align` is. -/
structure OneByOne (Γ : Types U) (size align : Nat) (parts : List (Nat × Piece U)) : Prop where
  apart : parts.Pairwise fun x y => x.1 + (Γ.piece x.2).size ≤ y.1
  inside : ∀ x ∈ parts, x.1 + (Γ.piece x.2).size ≤ size
  aligned : ∀ x ∈ parts, ∀ a, align ∣ a → (Γ.piece x.2).align ∣ a + x.1

end Pigro.Ms
