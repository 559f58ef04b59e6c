import Verif.Spec.Offsets
import Verif.Proofs.Layout
/-!
# Lemmas about where values are stored
-/
namespace Pigro.Lay
variable {T N : Type}

theorem PowTwo.pos {a : Nat} (h : PowTwo a) : 0 < a := by
  obtain ⟨k, rfl⟩ := h
  exact Nat.two_pow_pos k

theorem PowTwo.max {a b : Nat} (ha : PowTwo a) (hb : PowTwo b) : a ∣ max a b ∧ b ∣ max a b ∧ PowTwo (max a b) := by
  obtain ⟨k, rfl⟩ := ha
  obtain ⟨l, rfl⟩ := hb
  rcases Nat.le_total k l with h | h
  · rw [Nat.max_eq_right (Nat.pow_le_pow_right (by omega) h)]
    exact ⟨Nat.pow_dvd_pow 2 h, Nat.dvd_refl _, l, rfl⟩
  · rw [Nat.max_eq_left (Nat.pow_le_pow_right (by omega) h)]
    exact ⟨Nat.dvd_refl _, Nat.pow_dvd_pow 2 h, k, rfl⟩

variable [DecidableEq N]

theorem search_from (placed empties : List (N × Nat)) (align : Nat) : ∀ fuel off, align ∣ off →
    off ≤ search placed empties align fuel off ∧ align ∣ search placed empties align fuel off := by
  intro fuel
  induction fuel with
  | zero => intro off h; exact ⟨Nat.le_refl _, h⟩
  | succ n ih =>
    intro off h
    rw [search]
    split
    · obtain ⟨h1, h2⟩ := ih (off + align) (Nat.dvd_add h (Nat.dvd_refl _))
      exact ⟨by omega, h2⟩
    · exact ⟨Nat.le_refl _, h⟩

theorem memberOffset_spec (p : Progress N) (d : Layout N) (h : 0 < d.align) : p.dsize ≤ memberOffset p d ∧ d.align ∣ memberOffset p d := by
  obtain ⟨h1, h2⟩ := search_from p.placed d.empties d.align (attempts p.placed) (roundUp p.dsize d.align) (Nat.dvd_mul_left _ _)
  exact ⟨Nat.le_trans (le_roundUp _ _ h) h1, h2⟩

theorem baseOffset_dvd (p : Progress N) (d : Layout N) (h : 0 < d.align) : d.align ∣ baseOffset p d := by
  unfold baseOffset
  dsimp only
  split
  · split
    · exact (memberOffset_spec p d h).2
    · exact Nat.dvd_zero _
  · exact (memberOffset_spec p d h).2

/-- Placing a base class that is not empty. -/
theorem placeBase_solid (p : Progress N) (d : Layout N) (he : d.empty = false) :
    (placeBase p d).dsize = baseOffset p d + d.nvsize ∧ baseOffset p d = memberOffset p d := by
  simp [placeBase, baseOffset, memberOffset, he]

theorem placeBase_dsize (p : Progress N) (d : Layout N) (h : 0 < d.align) : p.dsize ≤ (placeBase p d).dsize := by
  cases he : d.empty
  · rw [(placeBase_solid p d he).1, (placeBase_solid p d he).2]
    have := (memberOffset_spec p d h).1
    omega
  · simp [placeBase, he]

theorem placeBase_size (p : Progress N) (d : Layout N) (h : p.dsize ≤ p.size) : p.size ≤ (placeBase p d).size ∧ (placeBase p d).dsize ≤ (placeBase p d).size := by
  unfold placeBase
  dsimp only
  split <;> dsimp only <;> omega

/-- Base classes that are not empty lie one after another. -/
theorem offsets_spec : ∀ (ds : List (Layout N)) (p : Progress N), (∀ d ∈ ds, PowTwo d.align) → PowTwo p.align → p.dsize ≤ p.size →
    (ds.foldl placeBase p).dsize ≤ (ds.foldl placeBase p).size ∧ p.dsize ≤ (ds.foldl placeBase p).dsize ∧
    PowTwo (ds.foldl placeBase p).align ∧ p.align ∣ (ds.foldl placeBase p).align ∧
    (∀ (i : Nat) (d : Layout N), ds[i]? = some d → d.align ∣ (ds.foldl placeBase p).align ∧ ∃ o, (offsets p ds)[i]? = some o ∧ d.align ∣ o ∧
      (d.empty = false → p.dsize ≤ o ∧ o + d.nvsize ≤ (ds.foldl placeBase p).dsize)) ∧
    (∀ (i j : Nat) (d e : Layout N) (o q : Nat), i < j → ds[i]? = some d → ds[j]? = some e → d.empty = false → e.empty = false → (offsets p ds)[i]? = some o →
      (offsets p ds)[j]? = some q → o + d.nvsize ≤ q) := by
  intro ds
  induction ds with
  | nil => intro p _ hp hs; exact ⟨hs, Nat.le_refl _, hp, Nat.dvd_refl _, by simp, by simp⟩
  | cons d ds ih =>
    intro p h hp hs
    have hd := h d (by simp)
    have hm := hp.max hd
    have hal : (placeBase p d).align = Max.max p.align d.align := by
      unfold placeBase; dsimp only; split <;> rfl
    obtain ⟨i1, i2, i3, i4, i5, i6⟩ := ih (placeBase p d) (fun e he => h e (by simp [he])) (by rw [hal]; exact hm.2.2) (placeBase_size p d hs).2
    have hmono := placeBase_dsize p d hd.pos
    rw [hal] at i4
    rw [List.foldl_cons]
    refine ⟨i1, Nat.le_trans hmono i2, i3, Nat.dvd_trans hm.1 i4, ?_, ?_⟩
    · intro i e hi
      rcases i with _ | i
      · simp only [List.getElem?_cons_zero, Option.some.injEq] at hi
        subst hi
        refine ⟨Nat.dvd_trans hm.2.1 i4, baseOffset p d, rfl, baseOffset_dvd p d hd.pos, fun he => ?_⟩
        have h1 := placeBase_solid p d he
        have h2 := (memberOffset_spec p d hd.pos).1
        exact ⟨by omega, by omega⟩
      · simp only [List.getElem?_cons_succ] at hi
        obtain ⟨j1, o, j2, j3, j4⟩ := i5 i e hi
        refine ⟨j1, o, by simpa [offsets] using j2, j3, fun he => ?_⟩
        obtain ⟨j5, j6⟩ := j4 he
        exact ⟨by omega, j6⟩
    · intro i j x y o q hij hi hj hx hy ho hq
      rcases j with _ | j
      · omega
      · simp only [List.getElem?_cons_succ] at hj
        simp only [offsets, List.getElem?_cons_succ] at hq
        rcases i with _ | i
        · simp only [List.getElem?_cons_zero, Option.some.injEq] at hi
          subst hi
          simp only [offsets, List.getElem?_cons_zero, Option.some.injEq] at ho
          subst ho
          obtain ⟨-, q', k1, -, k2⟩ := i5 j y hj
          rw [hq] at k1; cases k1
          have := (k2 hy).1
          have h1 := (placeBase_solid p d hx).1
          omega
        · simp only [List.getElem?_cons_succ] at hi
          simp only [offsets, List.getElem?_cons_succ] at ho
          exact i6 i j x y o q (by omega) hi hj hx hy ho hq

/-- Of a class with base classes only. -/
theorem class_bases (name : N) (ds : List (Layout N)) (h : ∀ d ∈ ds, PowTwo d.align) :
    PowTwo (classLayout name ds []).align ∧ (classLayout name ds []).nvsize ≤ (classLayout name ds []).size ∧
    ∀ (i : Nat) (d : Layout N), ds[i]? = some d → d.align ∣ (classLayout name ds []).align ∧ ∃ o, (offsets .start ds)[i]? = some o ∧ d.align ∣ o ∧
      (d.empty = false → o + d.nvsize ≤ (classLayout name ds []).nvsize) := by
  obtain ⟨h1, -, h3, -, h5, -⟩ := offsets_spec ds .start h ⟨0, rfl⟩ (Nat.le_refl _)
  refine ⟨h3, le_roundUp _ _ h3.pos, ?_⟩
  intro i d hi
  obtain ⟨j1, o, j2, j3, j4⟩ := h5 i d hi
  refine ⟨j1, o, j2, j3, fun he => ?_⟩
  have := (j4 he).2
  show o + d.nvsize ≤ max (ds.foldl placeBase .start).size 1
  omega

/-- Of a class with one base class. -/
theorem class_base (name : N) (d : Layout N) (h : PowTwo d.align) :
    PowTwo (classLayout name [d] []).align ∧ (classLayout name [d] []).nvsize ≤ (classLayout name [d] []).size ∧ d.align ∣ (classLayout name [d] []).align ∧
    d.align ∣ baseOffset .start d ∧ (d.empty = false → baseOffset .start d + d.nvsize ≤ (classLayout name [d] []).nvsize) := by
  obtain ⟨h1, h2, h3⟩ := class_bases name [d] (by simpa using h)
  obtain ⟨j1, o, j2, j3, j4⟩ := h3 0 d rfl
  simp only [offsets, List.getElem?_cons_zero, Option.some.injEq] at j2
  subst j2
  exact ⟨h1, h2, j1, j3, j4⟩

/-- Of a class with one member. -/
theorem class_member (name : N) (d : Layout N) (h : PowTwo d.align) :
    PowTwo (classLayout name [] [d]).align ∧ (classLayout name [] [d]).nvsize ≤ (classLayout name [] [d]).size ∧ d.align ∣ (classLayout name [] [d]).align ∧
    d.align ∣ memberOffset .start d ∧ memberOffset .start d + d.size ≤ (classLayout name [] [d]).nvsize ∧ (classLayout name [] [d]).empty = false := by
  have ha : (classLayout name [] [d]).align = d.align := by
    have := h.pos
    show max 1 d.align = d.align
    omega
  have hn : (classLayout name [] [d]).nvsize = max (max 0 (memberOffset .start d + d.size)) 1 := rfl
  refine ⟨by rw [ha]; exact h, ?_, by rw [ha]; exact Nat.dvd_refl _, (memberOffset_spec _ d h.pos).2, by omega, rfl⟩
  exact le_roundUp _ _ (by rw [← ha] at h; exact h.pos)

/-- A value in its element. -/
theorem element_value [DecidableEq T] (tag : Nat) (p : Part T) (he : p.layout.empty = false) (h : PowTwo p.layout.align) :
    PowTwo (elementLayout tag p).align ∧ (elementLayout tag p).empty = false ∧ p.layout.align ∣ (elementLayout tag p).align ∧ p.layout.align ∣ valueAt tag p ∧
    valueAt tag p + p.layout.size ≤ (elementLayout tag p).nvsize := by
  obtain ⟨a1, a2, a3, a4, a5, a6⟩ := class_member (Name.stdTuple p.ty) p.layout h
  obtain ⟨b1, b2, b3, b4, b5, b6⟩ := class_member (Name.mutGet tag p.ty) (classLayout (.stdTuple p.ty) [] [p.layout]) a1
  have hbs : ∀ d ∈ [classLayout (Name.constGet tag p.ty) [] [], classLayout (Name.mutGet tag p.ty) [] [classLayout (.stdTuple p.ty) [] [p.layout]]], PowTwo d.align := by
    intro d hd
    simp only [List.mem_cons, List.not_mem_nil, or_false] at hd
    rcases hd with rfl | rfl
    · exact ⟨0, rfl⟩
    · exact b1
  obtain ⟨c1, c2, c3⟩ := class_bases (Name.stored tag p.ty) _ hbs
  obtain ⟨d1, o, d2, d3, d4⟩ := c3 1 _ rfl
  simp only [offsets, List.getElem?_cons_succ, List.getElem?_cons_zero, Option.some.injEq] at d2
  subst d2
  have d5 := d4 b6
  rw [elementLayout, he, if_neg (by simp)]
  refine ⟨c1, ?_, Nat.dvd_trans a3 (Nat.dvd_trans b3 d1), ?_, ?_⟩
  · show (List.isEmpty ([] : List (Layout (Name T))) && List.all _ _) = false
    simp [b6]
  · exact Nat.dvd_add (Nat.dvd_trans (Nat.dvd_trans a3 b3) d3) (Nat.dvd_add (Nat.dvd_trans a3 b4) a4)
  · simp only [valueAt]
    omega

theorem element_align [DecidableEq T] (tag : Nat) (p : Part T) (h : p.layout.empty = false → PowTwo p.layout.align) : PowTwo (elementLayout tag p).align := by
  cases he : p.layout.empty
  · exact (element_value tag p he (h he)).1
  · rw [elementLayout, he, if_pos rfl]
    exact ⟨0, rfl⟩

/-- Values of elements in a class with the elements and something else as base classes. -/
theorem stored_apart [DecidableEq T] (name : Name T) (parts : List (Part T)) (rest : List (Layout (Name T))) (h : ∀ p ∈ parts, p.layout.empty = false → PowTwo p.layout.align)
    (hr : ∀ d ∈ rest, PowTwo d.align) :
    Apart (classLayout name ((parts.zipIdx.map fun p => elementLayout p.2 p.1) ++ rest) []).nvsize
      (classLayout name ((parts.zipIdx.map fun p => elementLayout p.2 p.1) ++ rest) []).align parts (storedAt parts rest) := by
  have hall : ∀ d ∈ (parts.zipIdx.map fun p => elementLayout p.2 p.1) ++ rest, PowTwo d.align := by
    intro d hd
    rcases List.mem_append.1 hd with hd | hd
    · obtain ⟨⟨p, k⟩, hp, rfl⟩ := List.mem_map.1 hd
      exact element_align k p (h p (List.mem_of_getElem? (List.mk_mem_zipIdx_iff_getElem?.1 hp)))
    · exact hr d hd
  have hget : ∀ (i : Nat) (p : Part T), parts[i]? = some p →
      ((parts.zipIdx.map fun p => elementLayout p.2 p.1) ++ rest)[i]? = some (elementLayout i p) := by
    intro i p hi
    obtain ⟨hlt, -⟩ := List.getElem?_eq_some_iff.1 hi
    rw [List.getElem?_append_left (by simpa using hlt), List.getElem?_map, List.getElem?_zipIdx, hi]
    simp
  obtain ⟨c1, c2, c3⟩ := class_bases name _ hall
  obtain ⟨-, -, -, -, -, o6⟩ := offsets_spec _ .start hall ⟨0, rfl⟩ (Nat.le_refl _)
  generalize hds : (parts.zipIdx.map fun p => elementLayout p.2 p.1) ++ rest = ds at *
  have hsome : ∀ (i : Nat) (x : Nat), storedAt parts rest i = some x → ∃ p o, parts[i]? = some p ∧ p.layout.empty = false ∧ (offsets .start ds)[i]? = some o ∧ x = o + valueAt i p := by
    intro i x hx
    simp only [storedAt, hds] at hx
    split at hx
    · rename_i p o hp ho
      split at hx
      · simp at hx
      · rename_i he
        cases hx
        exact ⟨p, o, hp, by simpa using he, ho, rfl⟩
    · simp at hx
  have hval : ∀ (i : Nat) (p : Part T) (x : Nat), parts[i]? = some p → storedAt parts rest i = some x → ∃ o, (offsets .start ds)[i]? = some o ∧ p.layout.empty = false ∧
      x = o + valueAt i p ∧ (elementLayout i p).align ∣ o ∧ (elementLayout i p).align ∣ (classLayout name ds []).align ∧
      o + (elementLayout i p).nvsize ≤ (classLayout name ds []).nvsize ∧ p.layout.align ∣ (elementLayout i p).align ∧ p.layout.align ∣ valueAt i p ∧
      valueAt i p + p.layout.size ≤ (elementLayout i p).nvsize ∧ (elementLayout i p).empty = false := by
    intro i p x hp hx
    obtain ⟨p', o, hp', he, ho, rfl⟩ := hsome i x hx
    rw [hp] at hp'; cases hp'
    obtain ⟨e1, e2, e3, e4, e5⟩ := element_value i p he (h p (List.mem_of_getElem? hp) he)
    obtain ⟨f1, o', f2, f3, f4⟩ := c3 i _ (hget i p hp)
    rw [ho] at f2; cases f2
    exact ⟨o, ho, he, rfl, f3, f1, f4 e2, e3, e4, e5, e2⟩
  refine ⟨?_, ?_, ?_, ?_, ?_⟩
  · intro i p hp he
    obtain ⟨-, o, f2, -⟩ := c3 i _ (hget i p hp)
    exact ⟨o + valueAt i p, by simp only [storedAt, hds, hp, f2, he]; rfl⟩
  · intro i x hx
    obtain ⟨p, o, hp, he, -⟩ := hsome i x hx
    exact ⟨p, hp, he⟩
  · intro i p x hp hx
    obtain ⟨o, -, -, rfl, -, -, g1, -, -, g2, -⟩ := hval i p x hp hx
    omega
  · intro i p x a hp hx ha
    obtain ⟨o, -, -, rfl, g1, g2, -, g3, g4, -⟩ := hval i p x hp hx
    exact Nat.dvd_add (Nat.dvd_trans g3 (Nat.dvd_trans g2 ha)) (Nat.dvd_add (Nat.dvd_trans g3 g1) g4)
  · intro i j p r x y hij hp hr' hx hy
    obtain ⟨o, ho, -, rfl, -, -, -, -, -, g2, g3⟩ := hval i p x hp hx
    obtain ⟨q, hq, -, rfl, -, -, -, -, -, -, g6⟩ := hval j r y hr' hy
    have := o6 i j _ _ o q hij (hget i p hp) (hget j r hr') g3 g6 ho hq
    omega

/-- The class the values are stored in is the base class of another one. -/
theorem Apart.base [DecidableEq T] {parts : List (Part T)} {at_ : Nat → Option Nat} {d : Layout (Name T)} (name : Name T) (hd : PowTwo d.align)
    (h : Apart d.nvsize d.align parts at_) (he : (∃ p ∈ parts, p.layout.empty = false) → d.empty = false) :
    Apart (classLayout name [d] []).nvsize (classLayout name [d] []).align parts (fun i => (at_ i).map (baseOffset .start d + ·)) := by
  obtain ⟨c1, c2, c3, c4, c5⟩ := class_base name d hd
  refine ⟨?_, ?_, ?_, ?_, ?_⟩
  · intro i p hp hpe
    obtain ⟨o, ho⟩ := h.all i p hp hpe
    exact ⟨_, by rw [ho]; rfl⟩
  · intro i o ho
    obtain ⟨x, hx, rfl⟩ := Option.map_eq_some_iff.1 ho
    exact h.only i x hx
  · intro i p o hp ho
    obtain ⟨x, hx, rfl⟩ := Option.map_eq_some_iff.1 ho
    obtain ⟨p', hp', hpe⟩ := h.only i x hx
    have h1 := h.inside i p x hp hx
    have h2 := c5 (he ⟨p', List.mem_of_getElem? hp', hpe⟩)
    omega
  · intro i p o a hp ho ha
    obtain ⟨x, hx, rfl⟩ := Option.map_eq_some_iff.1 ho
    rw [← Nat.add_assoc]
    exact h.aligned i p x (a + baseOffset .start d) hp hx (Nat.dvd_add (Nat.dvd_trans c3 ha) c4)
  · intro i j p q o r hij hp hq ho hr
    obtain ⟨x, hx, rfl⟩ := Option.map_eq_some_iff.1 ho
    obtain ⟨y, hy, rfl⟩ := Option.map_eq_some_iff.1 hr
    have := h.apart i j p q x y hij hp hq hx hy
    omega

/-- `uncaptured(vs...) >> f` -/
theorem uncapture_apart [DecidableEq T] (fTag : Nat) (f : UPart T) (hf : PowTwo f.layout.align) : ∀ vs : List (UPart T), (∀ v ∈ vs, v.layout.empty = false → PowTwo v.layout.align) →
    PowTwo (uncaptureLayout fTag f vs).align ∧
    (∀ (i : Nat) (v : UPart T), vs[i]? = some v → v.layout.empty = false → uncaptureAt fTag f vs i + v.layout.size ≤ (uncaptureLayout fTag f vs).nvsize ∧
      v.layout.align ∣ uncaptureAt fTag f vs i ∧ v.layout.align ∣ (uncaptureLayout fTag f vs).align ∧ (uncaptureLayout fTag f vs).empty = false) ∧
    (∀ (i j : Nat) (v w : UPart T), i < j → vs[i]? = some v → vs[j]? = some w → v.layout.empty = false → w.layout.empty = false →
      uncaptureAt fTag f vs i + v.layout.size ≤ uncaptureAt fTag f vs j) ∧
    f.layout.align ∣ uncaptureAt fTag f vs vs.length ∧ f.layout.align ∣ (uncaptureLayout fTag f vs).align ∧
    (f.layout.empty = false → uncaptureAt fTag f vs vs.length + f.layout.nvsize ≤ (uncaptureLayout fTag f vs).nvsize ∧ (uncaptureLayout fTag f vs).empty = false ∧
      ∀ (i : Nat) (v : UPart T), vs[i]? = some v → v.layout.empty = false → uncaptureAt fTag f vs i + v.layout.size ≤ uncaptureAt fTag f vs vs.length) := by
  intro vs
  induction vs with
  | nil =>
    intro _
    refine ⟨hf, by simp, by simp, Nat.dvd_zero _, Nat.dvd_refl _, fun he => ⟨?_, he, by simp⟩⟩
    simp [uncaptureAt, uncaptureLayout]
  | cons v vs ih =>
    intro hp
    obtain ⟨i1, i2, i3, i4, i5, i6⟩ := ih (fun w hw => hp w (by simp [hw]))
    have hUn : uncaptureLayout fTag f (v :: vs) = classLayout (.invocable (fTag + vs.length + 1) (f.ty :: v.ty :: vs.map (·.ty)))
        [uncapturedLayout (fTag + vs.length + 1) v, uncaptureLayout fTag f vs] [] := rfl
    have hu : PowTwo (uncapturedLayout (fTag + vs.length + 1) v).align ∧ (v.layout.empty = false → (uncapturedLayout (fTag + vs.length + 1) v).empty = false ∧
        v.layout.align ∣ (uncapturedLayout (fTag + vs.length + 1) v).align ∧ v.layout.align ∣ memberOffset .start v.layout ∧
        memberOffset .start v.layout + v.layout.size ≤ (uncapturedLayout (fTag + vs.length + 1) v).nvsize) := by
      unfold uncapturedLayout
      cases he : v.layout.empty
      · obtain ⟨a1, a2, a3, a4, a5, a6⟩ := class_member (UName.uncaptured v.ty (fTag + vs.length + 1)) v.layout (hp v (by simp) he)
        simp only [Bool.false_eq_true, if_false]
        exact ⟨a1, fun _ => ⟨a6, a3, a4, a5⟩⟩
      · simp only [if_true]
        exact ⟨⟨0, rfl⟩, fun h => absurd h (by simp)⟩
    have hat0 : uncaptureAt fTag f (v :: vs) 0 = baseOffset .start (uncapturedLayout (fTag + vs.length + 1) v) + memberOffset .start v.layout := rfl
    have hats : ∀ i, uncaptureAt fTag f (v :: vs) (i + 1) =
        baseOffset (placeBase .start (uncapturedLayout (fTag + vs.length + 1) v)) (uncaptureLayout fTag f vs) + uncaptureAt fTag f vs i := fun _ => rfl
    rw [hUn, List.length_cons]
    generalize uncaptureLayout fTag f vs = U at *
    generalize uncapturedLayout (fTag + vs.length + 1) v = W at *
    generalize UName.invocable (fTag + vs.length + 1) (f.ty :: v.ty :: vs.map (·.ty)) = name at *
    have hbs : ∀ d ∈ [W, U], PowTwo d.align := by
      intro d hd
      simp only [List.mem_cons, List.not_mem_nil, or_false] at hd
      rcases hd with rfl | rfl
      · exact hu.1
      · exact i1
    obtain ⟨c1, c2, c3⟩ := class_bases name [W, U] hbs
    obtain ⟨-, -, -, -, -, o6⟩ := offsets_spec [W, U] .start hbs ⟨0, rfl⟩ (Nat.le_refl _)
    obtain ⟨d1, o, d2, d3, d4⟩ := c3 0 W rfl
    obtain ⟨e1, q, e2, e3, e4⟩ := c3 1 U rfl
    have h6 := o6 0 1 W U o q (by omega) rfl rfl
    have ho : o = baseOffset .start W := by simpa [offsets] using d2.symm
    have hq : q = baseOffset (placeBase .start W) U := by simpa [offsets] using e2.symm
    rw [← ho] at hat0
    rw [← hq] at hats
    have hce : (classLayout name [W, U] []).empty = (W.empty && U.empty) := by simp [classLayout]
    refine ⟨c1, ?_, ?_, ?_, Nat.dvd_trans i5 e1, ?_⟩
    · intro i w hi hw
      rcases i with _ | i
      · simp only [List.getElem?_cons_zero, Option.some.injEq] at hi
        subst hi
        obtain ⟨u1, u2, u3, u4⟩ := hu.2 hw
        have := d4 u1
        rw [hat0, hce, u1]
        exact ⟨by omega, Nat.dvd_add (Nat.dvd_trans u2 d3) u3, Nat.dvd_trans u2 d1, rfl⟩
      · simp only [List.getElem?_cons_succ] at hi
        obtain ⟨j1, j2, j3, j4⟩ := i2 i w hi hw
        have := e4 j4
        rw [hats, hce, j4]
        exact ⟨by omega, Nat.dvd_add (Nat.dvd_trans j3 e3) j2, Nat.dvd_trans j3 e1, by simp⟩
    · intro i j w x hij hi hj hw hx
      rcases j with _ | j
      · omega
      · simp only [List.getElem?_cons_succ] at hj
        rw [hats]
        rcases i with _ | i
        · simp only [List.getElem?_cons_zero, Option.some.injEq] at hi
          subst hi
          obtain ⟨u1, u2, u3, u4⟩ := hu.2 hw
          obtain ⟨-, -, -, j4⟩ := i2 j x hj hx
          have := h6 u1 j4 d2 e2
          rw [hat0]; omega
        · simp only [List.getElem?_cons_succ] at hi
          have := i3 i j w x (by omega) hi hj hw hx
          rw [hats]; omega
    · rw [hats]
      exact Nat.dvd_add (Nat.dvd_trans i5 e3) i4
    · intro hfe
      obtain ⟨j1, j2, j3⟩ := i6 hfe
      have h7 := e4 j2
      rw [hats, hce, j2]
      refine ⟨by omega, by simp, ?_⟩
      intro i w hi hw
      rcases i with _ | i
      · simp only [List.getElem?_cons_zero, Option.some.injEq] at hi
        subst hi
        obtain ⟨u1, u2, u3, u4⟩ := hu.2 hw
        have := h6 u1 j2 d2 e2
        rw [hat0]; omega
      · simp only [List.getElem?_cons_succ] at hi
        have := j3 i w hi hw
        rw [hats]; omega

end Pigro.Lay
