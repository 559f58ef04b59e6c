import Verif.Model.MsOffsets
import Verif.Spec.MsLayout
/-!
# Specification of where values are stored

Values lie where the members of a struct would: plain arithmetic with sizes and alignments, in which empty types do not occur.
-/
namespace Pigro.Ms
open Lay (Foot membersEnd padding)

/-- Offset of member `i` of a struct; `none` if it takes nothing. -/
def structAt : List Foot → Nat → Option Nat
  | ms, i => match ms[i]? with
    | some (some (_, a)) =>
      let before := membersEnd ((ms.take i).filterMap id) 0
      some (before + padding before a)
    | _ => none

/-- Alignments are powers of two (language rule). -/
def Pow2 (a : Nat) : Prop := ∃ k, a = 2 ^ k

/-- Storage of values of types `ds` at the offsets `at_`, in an object of a size and an alignment. -/
structure Stored (size align : Nat) (ds : List Layout) (at_ : Nat → Option Nat) : Prop where
  /-- Every value that is not of an empty type is stored. -/
  all : ∀ i d, ds[i]? = some d → d.empty = false → ∃ o, at_ i = some o
  /-- Nothing else is. -/
  only : ∀ i o, at_ i = some o → ∃ d, ds[i]? = some d ∧ d.empty = false
  /-- Inside the object. -/
  inside : ∀ i d o, ds[i]? = some d → at_ i = some o → o + d.size ≤ size
  /-- Aligned, wherever the object is. -/
  aligned : ∀ i d o a, ds[i]? = some d → at_ i = some o → align ∣ a → d.align ∣ a + o
  /-- Values do not share bytes: one ends before the next begins. -/
  apart : ∀ i j d e o q, i < j → ds[i]? = some d → ds[j]? = some e → at_ i = some o → at_ j = some q → o + d.size ≤ q

end Pigro.Ms
