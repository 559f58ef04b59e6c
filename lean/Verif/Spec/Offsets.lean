import Verif.Model.Offsets
/-!
# Specification of where values are stored

Nothing but intervals of bytes.
-/
namespace Pigro.Lay
variable {T : Type}

/-- Alignments are powers of two (language rule). -/
def PowTwo (a : Nat) : Prop := ∃ k, a = 2 ^ k

/-- Storage of values of types `ds` at the offsets `at_`, in an object of a size and an alignment. -/
structure Apart (size align : Nat) (ds : List (Part T)) (at_ : Nat → Option Nat) : Prop where
  /-- Every value that is not of an empty type is stored. -/
  all : ∀ i d, ds[i]? = some d → d.layout.empty = false → ∃ o, at_ i = some o
  /-- Nothing else is. -/
  only : ∀ i o, at_ i = some o → ∃ d, ds[i]? = some d ∧ d.layout.empty = false
  /-- Inside the object. -/
  inside : ∀ i d o, ds[i]? = some d → at_ i = some o → o + d.layout.size ≤ size
  /-- Aligned, wherever the object is. -/
  aligned : ∀ i d o a, ds[i]? = some d → at_ i = some o → align ∣ a → d.layout.align ∣ a + o
  /-- Values do not share bytes: one ends before the next begins. -/
  apart : ∀ i j d e o q, i < j → ds[i]? = some d → ds[j]? = some e → at_ i = some o → at_ j = some q → o + d.layout.size ≤ q

end Pigro.Lay
