import Verif.Model.EmptyObject
import Verif.Proofs.Layout
/-!
# C57: empty_object
-/
namespace Pigro.Lay
variable {N : Type} [DecidableEq N]

/-- **C57.** For every empty class `T` (any bases, any size and alignment) and every place the storage may be put at: the object that is read lies where
the base class `T` of a `T2` in the storage would lie, it is within the storage, and suitably aligned. The storage is no larger than a `T`: `c` shares its place. -/
theorem C57_reads_the_base (t : Layout (EName N)) (he : t.empty = true) (ha : 0 < t.align) (a : Nat) (haligned : storageAlign t ∣ a) :
    getAddress t a = a + t2Base t ∧ a ≤ getAddress t a ∧ getAddress t a + t.size ≤ a + storageSize t ∧ t.align ∣ getAddress t a ∧
      storageSize t = roundUp (roundUp (max t.size 1) t.align) t.align := by
  have hb : t2Base t = 0 := by simp [t2Base, baseOffset, he, Progress.start, conflict]
  have hm : t2Member t = 0 := by
    simp [t2Member, memberOffset, placeBase, he, Progress.start, conflict, scalar, roundUp, attempts, search]
  have hg : getAddress t a = a := by simp [getAddress, hb, hm]
  have hal : storageAlign t = t.align := by
    simp [storageAlign, t1Layout, t2Layout, classLayout, placeMember, placeBase, he, scalar]
    omega
  refine ⟨by rw [hg, hb]; rfl, by omega, ?_, ?_⟩
  · rw [hg]
    have h1 : t.size ≤ (t2Layout t).size := by
      have : (t2Layout t).align = t.align := by
        simp [t2Layout, classLayout, placeMember, placeBase, he, scalar]
        omega
      have h2 : (t2Layout t).size = roundUp (t2Layout t).nvsize (t2Layout t).align := rfl
      have h3 : t.size ≤ (t2Layout t).nvsize := by
        simp [t2Layout, classLayout, placeMember, placeBase, he, scalar, conflict]
        omega
      rw [h2]
      exact Nat.le_trans h3 (le_roundUp _ _ (by omega))
    have h2 := le_roundUp (max (t1Layout (N := N)).size (t2Layout t).size) (storageAlign t) (by omega)
    simp only [storageSize]
    omega
  · refine ⟨by rw [hg, ← hal]; exact haligned, ?_⟩
    have h1 : (t1Layout (N := N)).size = 1 := by
      simp [t1Layout, classLayout, placeMember, scalar, search, attempts, conflict, roundUp]
    have h2 : (t2Layout t).size = roundUp (max t.size 1) t.align := by
      have hal' : max t.align 1 = t.align := by omega
      simp [t2Layout, classLayout, placeMember, placeBase, he, scalar, conflict, search, attempts, roundUp, Nat.max_comm 1, hal']
    have h3 := le_roundUp (max t.size 1) t.align ha
    rw [storageSize, hal, h1, h2, Nat.max_eq_right (by omega)]

/-- A class of size 2 that is empty: it has two base classes that are empty and of the same type (one of them inside another). -/
example : let e : Layout (EName Nat) := classLayout (.user 0) [] []
    let t := classLayout (.user 2) [e, classLayout (.user 1) [e] []] []
    t.empty = true ∧ t.size = 2 ∧ storageSize t = 2 ∧ getAddress t 40 = 40 := ⟨rfl, rfl, rfl, rfl⟩

/-- The condition is needed: for a class that is not empty, the address read is not that of the base class, but the one past its data. -/
theorem C57_nonempty_misses (t : Layout (EName N)) (he : t.empty = false) (ha : 0 < t.align) (hs : 0 < t.nvsize) (a : Nat) :
    getAddress t a = a + t2Base t + t.nvsize ∧ getAddress t a ≠ a + t2Base t := by
  have h0 : roundUp 0 t.align = 0 := by 
    have : (0 + t.align - 1) / t.align = 0 := Nat.div_eq_of_lt (by omega)
    rw [roundUp, this, Nat.zero_mul]
  have hb : t2Base t = 0 := by simp [t2Base, baseOffset, he, Progress.start, h0, search, attempts, conflict]
  have hm : t2Member t = t.nvsize := by
    simp [t2Member, memberOffset, placeBase, he, Progress.start, search, attempts, conflict, scalar, roundUp]
    exact Nat.mul_eq_zero.2 (.inl (Nat.div_eq_of_lt (by omega)))
  simp only [getAddress, hb, hm]
  omega

example : getAddress (classLayout (.user 0) [] [scalar 4] : Layout (EName Nat)) 40 = 44 := rfl

/-- The offsets above are those of the layout of `T2`: it is placed in the same steps. -/
theorem C57_offsets (t : Layout (EName N)) : (t2Layout t).align = (placeMember (placeBase .start t) (scalar 1)).align ∧
    (t2Layout t).nvsize = max (placeMember (placeBase .start t) (scalar 1)).size 1 := ⟨rfl, rfl⟩

/-- `baseOffset` and `memberOffset` are where the layout rules put a base class and a data member, whatever has been placed before: the empty classes in it
are recorded at their own offsets from there. -/
theorem C57_offsets_placed (p : Progress N) (d : Layout N) :
    (placeBase p d).placed = p.placed ++ d.empties.map (fun e => (e.1, e.2 + baseOffset p d)) ∧
    (placeMember p d).placed = p.placed ++ d.empties.map (fun e => (e.1, e.2 + memberOffset p d)) := by
  refine ⟨?_, rfl⟩
  cases h : d.empty <;> simp [placeBase, baseOffset, h]

/-- The second base class of type `0` does not fit at offset 0. -/
example : let e : Layout Nat := classLayout 0 [] []
    baseOffset (placeBase .start e) e = 1 ∧ (placeBase (placeBase .start e) e).placed = [(0, 0), (0, 1)] := ⟨rfl, rfl⟩

end Pigro.Lay
