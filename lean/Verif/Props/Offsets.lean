import Verif.Proofs.Offsets
/-!
# C103: where values are stored with compilers that follow the Itanium C++ ABI
-/
namespace Pigro.Lay
variable {T : Type} [DecidableEq T]

omit [DecidableEq T] in
theorem Apart.size {size size' align : Nat} {ds : List (Part T)} {at_ : Nat → Option Nat} (h : Apart size align ds at_) (hs : size ≤ size') : Apart size' align ds at_ :=
  ⟨h.all, h.only, fun i d o hi ho => Nat.le_trans (h.inside i d o hi ho) hs, h.aligned, h.apart⟩

theorem class_empty {N : Type} [DecidableEq N] (name : N) (ds : List (Layout N)) : (classLayout name ds []).empty = ds.all (·.empty) := by
  simp [classLayout]

/-- **C103**, tuples. In a `compressed_tuple` of any types, whatever subobjects they have and however those clash, every value that is not of an empty type is stored inside the tuple,
aligned, and shares no byte with another value. Values of empty types are not stored. -/
theorem C103_tuple (parts : List (Part T)) (h : ∀ p ∈ parts, p.layout.empty = false → PowTwo p.layout.align) :
    Apart (tupleLayout false parts).size (tupleLayout false parts).align parts (tupleAt parts) := by
  have hs := stored_apart (Name.overload none (parts.map (·.ty))) parts [] h (by simp)
  have hb : ∀ d ∈ parts.zipIdx.map (fun p => elementLayout p.2 p.1), PowTwo d.align := by
    intro d hd
    obtain ⟨⟨p, k⟩, hp, rfl⟩ := List.mem_map.1 hd
    exact element_align k p (h p (List.mem_of_getElem? (List.mk_mem_zipIdx_iff_getElem?.1 hp)))
  rw [List.append_nil] at hs
  have ho : overloadLayout false none (parts.map (·.ty)) (parts.zipIdx.map fun p => elementLayout p.2 p.1) =
      classLayout (Name.overload none (parts.map (·.ty))) (parts.zipIdx.map fun p => elementLayout p.2 p.1) [] := rfl
  have he : (∃ p ∈ parts, p.layout.empty = false) →
      (classLayout (Name.overload none (parts.map (·.ty))) (parts.zipIdx.map fun p => elementLayout p.2 p.1) []).empty = false := by
    rintro ⟨p, hp, hpe⟩
    rw [class_empty, Bool.eq_false_iff]
    intro hc
    rw [List.all_eq_true] at hc
    obtain ⟨i, hi⟩ := List.getElem?_of_mem hp
    have := hc (elementLayout i p) (List.mem_map.2 ⟨(p, i), List.mk_mem_zipIdx_iff_getElem?.2 hi, rfl⟩)
    rw [(element_value i p hpe (h p hp hpe)).2.1] at this
    simp at this
  have hal := (class_bases (Name.overload none (parts.map (·.ty))) _ hb).1
  simp only [tupleLayout, ho]
  have hat : tupleAt parts = fun i => ((storedAt parts [] i).map
      (baseOffset .start (classLayout (Name.overload none (parts.map (·.ty))) (parts.zipIdx.map fun p => elementLayout p.2 p.1) []) + ·)).map
      (baseOffset .start (classLayout (Name.recursive none (parts.map (·.ty)))
        [classLayout (Name.overload none (parts.map (·.ty))) (parts.zipIdx.map fun p => elementLayout p.2 p.1) []] []) + ·) := by
    funext i
    simp only [tupleAt, ho, Option.map_map]
    rfl
  rw [hat]
  have h1 := hs.base (Name.recursive none (parts.map (·.ty))) hal he
  have hr := class_base (Name.recursive none (parts.map (·.ty))) _ hal
  have h2 := h1.base (Name.tuple (parts.map (·.ty))) hr.1 (by
    intro hx
    rw [class_empty]
    simp [he hx])
  exact h2.size (class_base _ _ hr.1).2.1

/-- Binders, without the tail padding. -/
theorem bound_apart (back : Bool) (f t : Part T) (hf : f.layout.empty = false → PowTwo f.layout.align) (ht : t.layout.empty = false → PowTwo t.layout.align) :
    Apart (boundLayout false back f t).nvsize (boundLayout false back f t).align [f, t] (boundAt back f t) ∧ PowTwo (boundLayout false back f t).align ∧
    (boundLayout false back f t).nvsize ≤ (boundLayout false back f t).size := by
  have h : ∀ p ∈ [f, t], p.layout.empty = false → PowTwo p.layout.align := by
    intro p hp
    simp only [List.mem_cons, List.not_mem_nil, or_false] at hp
    rcases hp with rfl | rfl <;> assumption
  have hg : PowTwo (classLayout (Name.generic back f.ty t.ty) [] []).align := ⟨0, rfl⟩
  have hs := stored_apart (Name.overload (some back) [f.ty, t.ty]) [f, t] [classLayout (Name.generic back f.ty t.ty) [] []] h (by simpa using hg)
  have ho : overloadLayout false (some back) [f.ty, t.ty] [elementLayout 0 f, elementLayout 1 t, classLayout (Name.generic back f.ty t.ty) [] []] =
      classLayout (Name.overload (some back) [f.ty, t.ty]) [elementLayout 0 f, elementLayout 1 t, classLayout (Name.generic back f.ty t.ty) [] []] [] := rfl
  have hl : ([f, t].zipIdx.map fun p => elementLayout p.2 p.1) ++ [classLayout (Name.generic back f.ty t.ty) [] []] =
      [elementLayout 0 f, elementLayout 1 t, classLayout (Name.generic back f.ty t.ty) [] []] := rfl
  rw [hl] at hs
  have hal : PowTwo (classLayout (Name.overload (some back) [f.ty, t.ty]) [elementLayout 0 f, elementLayout 1 t, classLayout (Name.generic back f.ty t.ty) [] []] []).align := by
    refine (class_bases _ _ ?_).1
    intro d hd
    simp only [List.mem_cons, List.not_mem_nil, or_false] at hd
    rcases hd with rfl | rfl | rfl
    · exact element_align 0 f hf
    · exact element_align 1 t ht
    · exact hg
  simp only [boundLayout, ho]
  have h1 := hs.base (Name.recursive (some back) [f.ty, t.ty]) hal (by
    rintro ⟨p, hp, hpe⟩
    rw [class_empty]
    simp only [List.mem_cons, List.not_mem_nil, or_false] at hp
    rcases hp with rfl | rfl
    · simp [(element_value 0 p hpe (hf hpe)).2.1]
    · simp [(element_value 1 p hpe (ht hpe)).2.1])
  obtain ⟨c1, c2, -⟩ := class_base (Name.recursive (some back) [f.ty, t.ty]) _ hal
  exact ⟨h1, c1, c2⟩

/-- **C103**, binders: the callable and the tuple of `t >> f` and `t << f` are stored apart, even if one contains what the other contains (`C32_clash`). -/
theorem C103_bound (back : Bool) (f t : Part T) (hf : f.layout.empty = false → PowTwo f.layout.align) (ht : t.layout.empty = false → PowTwo t.layout.align) :
    Apart (boundLayout false back f t).size (boundLayout false back f t).align [f, t] (boundAt back f t) := by
  obtain ⟨h1, -, h3⟩ := bound_apart back f t hf ht
  exact h1.size h3

omit [DecidableEq T] in
/-- **C103**, nested. What is stored in something that is itself stored is inside the outer object, aligned, and apart from everything else in it. -/
theorem C103_nested {size align : Nat} {ds es : List (Part T)} {at_ at' : Nat → Option Nat} (h : Apart size align ds at_) {j : Nat} {d : Part T} {o : Nat}
    (hj : ds[j]? = some d) (ho : at_ j = some o) (h' : Apart d.layout.size d.layout.align es at') (i : Nat) (e : Part T) (q : Nat) (hi : es[i]? = some e) (hq : at' i = some q) :
    o + q + e.layout.size ≤ size ∧ (∀ a, align ∣ a → e.layout.align ∣ a + (o + q)) ∧
    ∀ k c r, k ≠ j → ds[k]? = some c → at_ k = some r → r + c.layout.size ≤ o + q ∨ o + q + e.layout.size ≤ r := by
  have h1 := h.inside j d o hj ho
  have h2 := h'.inside i e q hi hq
  refine ⟨by omega, ?_, ?_⟩
  · intro a ha
    rw [← Nat.add_assoc]
    exact h'.aligned i e q (a + o) hi hq (h.aligned j d o a hj ho ha)
  · intro k c r hk hc hr
    rcases Nat.lt_or_ge k j with hkj | hkj
    · have := h.apart k j c d r o hkj hc hj hr ho
      omega
    · have := h.apart j k d c o r (by omega) hj hc ho hr
      omega

/-- **C103**, `uncaptured(vs...) >> f`: values are inside the object, aligned wherever it is, and share no byte with one another, nor with `f`. -/
theorem C103_uncapture (fTag : Nat) (f : UPart T) (vs : List (UPart T)) (hf : PowTwo f.layout.align) (h : ∀ v ∈ vs, v.layout.empty = false → PowTwo v.layout.align) :
    (∀ (i : Nat) (v : UPart T), vs[i]? = some v → v.layout.empty = false → uncaptureAt fTag f vs i + v.layout.size ≤ (uncaptureLayout fTag f vs).nvsize ∧
      ∀ a, (uncaptureLayout fTag f vs).align ∣ a → v.layout.align ∣ a + uncaptureAt fTag f vs i) ∧
    (∀ (i j : Nat) (v w : UPart T), i < j → vs[i]? = some v → vs[j]? = some w → v.layout.empty = false → w.layout.empty = false →
      uncaptureAt fTag f vs i + v.layout.size ≤ uncaptureAt fTag f vs j) ∧
    (∀ a, (uncaptureLayout fTag f vs).align ∣ a → f.layout.align ∣ a + uncaptureAt fTag f vs vs.length) ∧
    (f.layout.empty = false → uncaptureAt fTag f vs vs.length + f.layout.nvsize ≤ (uncaptureLayout fTag f vs).nvsize ∧
      ∀ (i : Nat) (v : UPart T), vs[i]? = some v → v.layout.empty = false → uncaptureAt fTag f vs i + v.layout.size ≤ uncaptureAt fTag f vs vs.length) := by
  obtain ⟨-, h2, h3, h4, h5, h6⟩ := uncapture_apart fTag f hf vs h
  refine ⟨?_, h3, fun a ha => Nat.dvd_add (Nat.dvd_trans h5 ha) h4, fun he => ⟨(h6 he).1, (h6 he).2.2⟩⟩
  intro i v hi hv
  obtain ⟨j1, j2, j3, -⟩ := h2 i v hi hv
  exact ⟨j1, fun a ha => Nat.dvd_add (Nat.dvd_trans j3 ha) j2⟩

namespace Demo103

/-- `uncaptured('a', E, 5) >> f` with a callable of 8 bytes. -/
def g : UPart Nat := ⟨7, classLayout (.user 7) [] [scalar 8]⟩

/-- Its values. -/
def us : List (UPart Nat) := [⟨1, scalar 1⟩, ⟨0, classLayout (.user 0) [] []⟩, ⟨3, scalar 4⟩]

example : (List.range 4).map (uncaptureAt 0 g us) = [0, 8, 8, 16] ∧ uncaptureAt 0 g us 0 + 1 ≤ uncaptureAt 0 g us 2 ∧ uncaptureAt 0 g us 2 + 4 ≤ uncaptureAt 0 g us 3 := by
  obtain ⟨-, h1, -, h2⟩ := C103_uncapture 0 g us ⟨3, by decide⟩ (by
    intro v hv he
    simp only [us, List.mem_cons, List.not_mem_nil, or_false] at hv
    rcases hv with rfl | rfl | rfl
    · exact ⟨0, rfl⟩
    · exact ⟨0, rfl⟩
    · exact ⟨2, rfl⟩)
  exact ⟨by decide +kernel, h1 0 2 _ _ (by decide) rfl rfl rfl rfl, (h2 rfl).2 2 _ rfl rfl⟩

/-- A class without members, named `n`. -/
def e (n : Nat) : Part Nat := ⟨n, classLayout (.user n) [] []⟩

/-- A scalar. -/
def s (n size : Nat) : Part Nat := ⟨n, scalar size⟩

/-- A class derived from `e 0`, with a member. -/
def d : Part Nat := ⟨9, classLayout (.user 9) [classLayout (.user 0) [] []] [scalar 4]⟩

theorem pow : ∀ p ∈ [s 1 1, e 0, s 2 8, d, d, s 3 4], p.layout.empty = false → PowTwo p.layout.align := by
  intro p hp _
  simp only [List.mem_cons, List.not_mem_nil, or_false] at hp
  rcases hp with rfl | rfl | rfl | rfl | rfl | rfl
  · exact ⟨0, rfl⟩
  · exact ⟨0, rfl⟩
  · exact ⟨3, rfl⟩
  · exact ⟨2, by decide⟩
  · exact ⟨2, by decide⟩
  · exact ⟨2, rfl⟩

/-- `compressed_tuple<char, E, double, D, D, int>` for a class `D` derived from `E`, with a member. -/
example : (List.range 7).map (tupleAt [s 1 1, e 0, s 2 8, d, d, s 3 4]) = [some 0, none, some 8, some 16, some 20, some 24, none] ∧
    Apart 32 8 [s 1 1, e 0, s 2 8, d, d, s 3 4] (tupleAt [s 1 1, e 0, s 2 8, d, d, s 3 4]) :=
  ⟨by decide +kernel, by
    have h := C103_tuple _ pow
    have h1 : (tupleLayout false [s 1 1, e 0, s 2 8, d, d, s 3 4]).size = 32 := by decide +kernel
    have h2 : (tupleLayout false [s 1 1, e 0, s 2 8, d, d, s 3 4]).align = 8 := by decide +kernel
    rw [h1, h2] at h
    exact h⟩

/-- `compressed_tuple{ f, 5 } >> f` for a lambda `f` without captures: the closures for `f` clash, and the tuple is moved on by 4 bytes. -/
example : boundAt false (e 0) ⟨8, tupleLayout false [e 0, s 2 4]⟩ 0 = none ∧ boundAt false (e 0) ⟨8, tupleLayout false [e 0, s 2 4]⟩ 1 = some 4 ∧
    4 + 4 ≤ (boundLayout false false (e 0) ⟨8, tupleLayout false [e 0, s 2 4]⟩).size := by
  have h := C103_bound false (e 0) ⟨8, tupleLayout false [e 0, s 2 4]⟩ (fun h => absurd h (by decide)) (fun _ => ⟨2, by decide +kernel⟩)
  have h1 : boundAt false (e 0) ⟨8, tupleLayout false [e 0, s 2 4]⟩ 1 = some 4 := by decide +kernel
  have h2 : (tupleLayout false [e 0, s 2 4]).size = 4 := by decide +kernel
  have h3 := h.inside 1 _ 4 rfl h1
  simp only [h2] at h3
  exact ⟨by decide +kernel, h1, h3⟩

/-- Two objects that are stored: apart. -/
example : ∃ o q, boundAt false d ⟨8, tupleLayout false [e 0, s 2 8]⟩ 0 = some o ∧ boundAt false d ⟨8, tupleLayout false [e 0, s 2 8]⟩ 1 = some q ∧ o + 4 ≤ q := by
  have h := C103_bound false d ⟨8, tupleLayout false [e 0, s 2 8]⟩ (fun _ => ⟨2, by decide⟩) (fun _ => ⟨3, by decide +kernel⟩)
  obtain ⟨o, ho⟩ := h.all 0 d rfl rfl
  obtain ⟨q, hq⟩ := h.all 1 _ rfl (by decide +kernel)
  exact ⟨o, q, ho, hq, h.apart 0 1 d _ o q (by decide) rfl rfl ho hq⟩

end Demo103

end Pigro.Lay
