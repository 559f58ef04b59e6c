import Verif.Model.Layout
/-!
# Specification of sizes
-/
namespace Pigro.Lay
variable {T N : Type}

/-- Padding before something of alignment `a`. -/
def padding (off a : Nat) : Nat := (a - off % a) % a

/-- End of the last of members of given sizes and alignments put one after another from `off` on. -/
def membersEnd : List (Nat × Nat) → Nat → Nat
  | [], off => off
  | (s, a) :: ms, off => membersEnd ms (off + padding off a + s)

/-- The strictest alignment. -/
def strictest (ms : List (Nat × Nat)) : Nat := ms.foldl (fun a m => max a m.2) 1

/-- Size of a plain struct with members of given sizes and alignments (1 without members). -/
def structSize (ms : List (Nat × Nat)) : Nat :=
  if ms = [] then 1 else membersEnd ms 0 + padding (membersEnd ms 0) (strictest ms)

/-- A type that is not an empty class: it has a size, a multiple of its alignment, and its subobjects lie inside. -/
def Layout.Proper (d : Layout N) : Prop :=
  d.empty = false ∧ 0 < d.size ∧ 0 < d.align ∧ d.align ∣ d.size ∧ ∀ e ∈ d.empties, e.2 < d.size

/-- Sizes and alignments of the non-empty ones. -/
def solid (ds : List (Layout N)) : List (Nat × Nat) := (ds.filter (! ·.empty)).map fun d => (d.size, d.align)

end Pigro.Lay
