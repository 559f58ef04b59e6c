import Verif.Spec.Layout
/-!
# Nested structs

Specification for C65.
-/
namespace Pigro.Lay
variable {N : Type}

/-- The bytes something takes, without padding at the end, and its alignment; nothing for an empty class. -/
def Layout.data (d : Layout N) : Option (Nat × Nat) := if d.empty then none else some (d.nvsize, d.align)

/-- Two things, the second at the first suitably aligned place after the first. -/
def after : Option (Nat × Nat) → Option (Nat × Nat) → Option (Nat × Nat)
  | none, r => r
  | some p, none => some p
  | some (n, a), some (m, b) => some (roundUp n b + m, max a b)

/-- Size of a class with these bytes. -/
def sizeOf? : Option (Nat × Nat) → Nat
  | none => 1
  | some (n, a) => roundUp n a

end Pigro.Lay
