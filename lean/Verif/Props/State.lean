import Verif.Proofs.State
/-!
# C104: where the state of lazy functions is stored, with the Itanium C++ ABI
-/
namespace Pigro.Lay
open Ms (Piece pieces)
variable {U : Type} [DecidableEq U]

/-- **C104**, with the Itanium C++ ABI. In the object `pigro::lazy` returns, however deep, the caches of all lazy functions in it, all functions and all constants (apart from those of
empty types) have bytes of their own, wherever clashes of empty classes may have moved them: one after another, none overlapping another, all inside the object, aligned wherever it is. -/
theorem C104_state (Γ : Types U) (h : Γ.Powers) (t : LTree U) :
    InTurn Γ (depPart Γ false t).layout.size (depPart Γ false t).layout.align (depH Γ t).parts ∧ (depH Γ t).parts.map (·.2) = (pieces t).filter Γ.stored := by
  obtain ⟨h3, h4⟩ := depH_ok h t
  have := h3.parts
  rw [depH_part] at this
  exact ⟨this, h4⟩

omit [DecidableEq U] in
theorem sum_le {sz : Piece U → Nat} {size : Nat} : ∀ (parts : List (Nat × Piece U)) (lo : Nat), (parts.Pairwise fun x y => x.1 + sz x.2 ≤ y.1) →
    (∀ x ∈ parts, x.1 + sz x.2 ≤ size) → (∀ x ∈ parts, lo ≤ x.1) → lo ≤ size → lo + (parts.map fun x => sz x.2).sum ≤ size := by
  intro parts
  induction parts with
  | nil => intro lo _ _ _ h; simpa using h
  | cons x parts ih =>
    intro lo hp hs hl hlo
    rw [List.pairwise_cons] at hp
    have h1 := ih (x.1 + sz x.2) hp.2 (fun y hy => hs y (by simp [hy])) (fun y hy => hp.1 y hy) (hs x (by simp))
    have h2 := hl x (by simp)
    simp only [List.map_cons, List.sum_cons]
    omega

/-- So an object is at least as large as all caches, functions and constants in it together. -/
theorem C104_no_smaller (Γ : Types U) (h : Γ.Powers) (t : LTree U) : (((pieces t).filter Γ.stored).map fun p => (Γ.piece p).size).sum ≤ (depPart Γ false t).layout.size := by
  obtain ⟨h3, h4⟩ := C104_state Γ h t
  have := sum_le (sz := fun p => (Γ.piece p).size) (depH Γ t).parts 0 h3.apart h3.inside (by simp) (Nat.zero_le _)
  rw [← h4, List.map_map]
  simp only [Nat.zero_add] at this
  exact this

namespace Demo104

/-- Types: `0`: a lambda without captures, `1`: `char`, `2`: `int`, any other: `double`. -/
def ty : Nat → Lt Nat
  | 0 => classLayout (.user (.user 0)) [] []
  | 1 => scalar 1
  | 2 => scalar 4
  | _ => scalar 8

/-- `std::optional` of them. -/
def opt : Nat → Lt Nat
  | 2 => classLayout (.user (.user 12)) [] [scalar 4, scalar 1]
  | _ => classLayout (.user (.user 13)) [] [scalar 8, scalar 1]

/-- Both. -/
def Γ : Types Nat := ⟨ty, opt⟩

theorem aligned : Γ.Powers := by
  refine ⟨fun u _ => ?_, fun u => ?_⟩
  · rcases u with _ | _ | _ | u
    · exact ⟨0, rfl⟩
    · exact ⟨0, rfl⟩
    · exact ⟨2, rfl⟩
    · exact ⟨3, rfl⟩
  · have h8 : PowTwo (classLayout (Name.user (LTy.user 13)) [] [scalar 8, scalar 1]).align ∧ (classLayout (Name.user (LTy.user 13)) [] [scalar 8, scalar 1]).empty = false :=
      ⟨⟨3, by decide +kernel⟩, rfl⟩
    rcases u with _ | _ | _ | u
    · exact h8
    · exact h8
    · exact ⟨⟨2, by show (classLayout (Name.user (LTy.user 12)) [] [scalar 4, scalar 1]).align = 2 ^ 2; decide +kernel⟩, rfl⟩
    · exact h8

/-- `a = lazy(f, 'x', 5)` of type `double`. -/
def a : LTree Nat := .lazy 0 (some 3) [.value 1, .value 2]

/-- `b = lazy(g, a, a)` of type `int`, where `g` captures a `double`. -/
def b : LTree Nat := .lazy 3 (some 2) [a, a]

/-- Two caches for the two copies of `a`. -/
example : (depH Γ b).parts.map (·.2) = [.cache (some 2), .function 3, .cache (some 3), .value 1, .value 2, .cache (some 3), .value 1, .value 2] ∧
    InTurn Γ (depPart Γ false b).layout.size (depPart Γ false b).layout.align (depH Γ b).parts := by
  obtain ⟨h1, h2⟩ := C104_state Γ aligned b
  refine ⟨?_, h1⟩
  rw [h2]
  decide +kernel

/-- Two caches of 16 bytes, one of 8, what `g` captures and the constants: 58 bytes, so with the alignment at least 64. -/
example : 58 ≤ (depPart Γ false b).layout.size := by
  have := C104_no_smaller Γ aligned b
  have h : (((pieces b).filter Γ.stored).map fun p => (Γ.piece p).size).sum = 58 := by decide +kernel
  omega

end Demo104

end Pigro.Lay
