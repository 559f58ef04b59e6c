import Verif.Proofs.MsState
/-!
# C104: where the state of lazy functions is stored, with the Microsoft compiler
-/
namespace Pigro.Ms
open Lay (LTree)
variable {U : Type}

/-- **C104**. In the object `pigro::lazy` returns, however deep, the caches of all lazy functions in it, all functions and all constants (apart from those of empty types) have bytes of
their own: one after another, none overlapping another, all inside the object, aligned wherever it is. A dependency that occurs twice has two caches. -/
theorem C104_state (Γ : Types U) (h : Γ.Plain) (h2 : Γ.Aligned) (t : LTree U) :
    OneByOne Γ (dep Γ t).size (dep Γ t).align (depObj Γ t).parts ∧ (depObj Γ t).parts.map (·.2) = (pieces t).filter Γ.stored := by
  obtain ⟨h3, h4⟩ := depObj_ok h h2 t
  have := h3.parts
  rw [depObj_layout] at this
  exact ⟨this, h4⟩

theorem sum_le {Γ : Types U} {size : Nat} : ∀ (parts : List (Nat × Piece U)) (lo : Nat), (parts.Pairwise fun x y => x.1 + (Γ.piece x.2).size ≤ y.1) →
    (∀ x ∈ parts, x.1 + (Γ.piece x.2).size ≤ size) → (∀ x ∈ parts, lo ≤ x.1) → lo ≤ size → lo + (parts.map fun x => (Γ.piece x.2).size).sum ≤ size := by
  intro parts
  induction parts with
  | nil => intro lo _ _ _ h; simpa using h
  | cons x parts ih =>
    intro lo hp hs hl hlo
    rw [List.pairwise_cons] at hp
    have h1 := ih (x.1 + (Γ.piece x.2).size) hp.2 (fun y hy => hs y (by simp [hy])) (fun y hy => hp.1 y hy) (hs x (by simp))
    have h2 := hl x (by simp)
    simp only [List.map_cons, List.sum_cons]
    omega

/-- So an object is at least as large as all caches, functions and constants in it together. -/
theorem C104_no_smaller (Γ : Types U) (h : Γ.Plain) (h2 : Γ.Aligned) (t : LTree U) : (((pieces t).filter Γ.stored).map fun p => (Γ.piece p).size).sum ≤ (dep Γ t).size := by
  obtain ⟨h3, h4⟩ := C104_state Γ h h2 t
  have := sum_le (depObj Γ t).parts 0 h3.apart h3.inside (by simp) (Nat.zero_le _)
  rw [← h4, List.map_map]
  simp only [Nat.zero_add] at this
  exact this

namespace Demo104

/-- Types: `0`: a lambda without captures, `1`: `char`, `2`: `int`, any other: `double`. -/
def ty : Nat → Layout
  | 0 => lam
  | 1 => scalar 1
  | 2 => scalar 4
  | _ => scalar 8

/-- `std::optional` of them. -/
def opt : Nat → Layout
  | 0 => scalar 1
  | 1 => classLayout false [] [scalar 1, scalar 1]
  | 2 => classLayout false [] [scalar 4, scalar 1]
  | _ => classLayout false [] [scalar 8, scalar 1]

/-- Both. -/
def Γ : Types Nat := ⟨ty, opt⟩

theorem plain : Γ.Plain := by
  refine ⟨fun u => ?_, fun u => ?_⟩
  · rcases u with _ | _ | _ | u
    · exact .inl rfl
    · exact .inr (by decide)
    · exact .inr (by decide)
    · exact .inr (by show (scalar 8).Proper; decide)
  · rcases u with _ | _ | _ | u
    · decide
    · decide
    · decide
    · show (classLayout false [] [scalar 8, scalar 1]).Proper; decide

theorem aligned : Γ.Aligned := by
  refine ⟨fun u _ => ?_, fun u => ?_⟩
  · rcases u with _ | _ | _ | u
    · exact ⟨0, rfl⟩
    · exact ⟨0, rfl⟩
    · exact ⟨2, rfl⟩
    · exact ⟨3, rfl⟩
  · rcases u with _ | _ | _ | u
    · exact ⟨0, rfl⟩
    · exact ⟨0, by decide⟩
    · exact ⟨2, by decide⟩
    · exact ⟨3, by show (classLayout false [] [scalar 8, scalar 1]).align = 2 ^ 3; decide⟩

/-- `a = lazy(f, 'x', 5)` of type `double`. -/
def a : LTree Nat := .lazy 0 (some 3) [.value 1, .value 2]

/-- `b = lazy(g, a, a)` of type `int`, where `g` captures a `double`. -/
def b : LTree Nat := .lazy 3 (some 2) [a, a]

/-- The cache of `b` is at 0, what `g` captures at 8, the caches of the two copies of `a` at 16 and 40. -/
example : (depObj Γ b).parts = [(0, .cache (some 2)), (8, .function 3), (16, .cache (some 3)), (32, .value 1), (36, .value 2), (40, .cache (some 3)), (56, .value 1), (60, .value 2)] ∧
    (dep Γ b).size = 64 ∧ OneByOne Γ (dep Γ b).size (dep Γ b).align (depObj Γ b).parts :=
  ⟨by decide +kernel, by decide +kernel, (C104_state Γ plain aligned b).1⟩

end Demo104

end Pigro.Ms
