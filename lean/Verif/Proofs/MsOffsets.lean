import Verif.Spec.MsOffsets
import Verif.Proofs.MsLayout
/-!
# Lemmas about where values are stored with the Microsoft compiler
-/
namespace Pigro.Ms
open Lay (roundUp Foot structOf membersEnd strictest structSize padding)

theorem roundUp_zero (a : Nat) : roundUp 0 a = 0 := by
  unfold roundUp
  rcases Nat.eq_zero_or_pos a with rfl | h
  · rfl
  · rw [Nat.div_eq_of_lt (by omega), Nat.zero_mul]

theorem dvd_roundUp (n a : Nat) : a ∣ roundUp n a := Nat.dvd_mul_left _ _

theorem baseOffset_start (ebo : Bool) (d : Layout) : baseOffset ebo .start d = 0 := by
  cases ebo <;> simp [baseOffset, Progress.start, roundUp_zero]

theorem memberOffset_start (d : Layout) : memberOffset .start d = 0 := by simp [memberOffset, Progress.start, roundUp_zero]

theorem offsets_append (ebo : Bool) (xs ys : List Layout) : ∀ p,
    offsets ebo p (xs ++ ys) = offsets ebo p xs ++ offsets ebo (xs.foldl (placeBase ebo) p) ys := by
  induction xs with
  | nil => intro p; rfl
  | cons x xs ih => intro p; simp [offsets, ih]

theorem offsets_length (ebo : Bool) (xs : List Layout) : ∀ p, (offsets ebo p xs).length = xs.length := by
  induction xs with
  | nil => intro p; rfl
  | cons x xs ih => intro p; simp [offsets, ih]

theorem order_spec (fs : List Layout) : TL.partitionT (fun x : Layout × Nat => x.1.empty) fs.zipIdx =
    fs.zipIdx.filter (·.1.empty) ++ fs.zipIdx.filter (! ·.1.empty) := by
  have h := TL.partition_eq fs.zipIdx (TL.predicate (fun x : Layout × Nat => x.1.empty))
  rw [TL.partitionT, h, TL.filterIf_eq, TL.filterIf_eq]
  rfl

theorem lookup_none {l : List (Nat × Nat)} {i : Nat} (h : ∀ x ∈ l, x.1 ≠ i) : l.lookup i = none := by
  induction l with
  | nil => rfl
  | cons x l ih =>
    obtain ⟨a, b⟩ := x
    have : (i == a) = false := by
      have := h (a, b) (by simp)
      simp at this ⊢; omega
    rw [List.lookup_cons, this]
    exact ih fun y hy => h y (by simp [hy])

theorem lookup_append_none {l m : List (Nat × Nat)} {i : Nat} (h : ∀ x ∈ l, x.1 ≠ i) : (l ++ m).lookup i = m.lookup i := by
  induction l with
  | nil => rfl
  | cons x l ih =>
    obtain ⟨a, b⟩ := x
    have : (i == a) = false := by
      have := h (a, b) (by simp)
      simp at this ⊢; omega
    rw [List.cons_append, List.lookup_cons, this]
    exact ih fun y hy => h y (by simp [hy])

theorem lookup_map (l : List (Nat × Nat)) (i c : Nat) : (l.map fun x => (x.1, c + x.2)).lookup i = (l.lookup i).map (c + ·) := by
  induction l with
  | nil => rfl
  | cons x l ih =>
    obtain ⟨a, b⟩ := x
    rw [List.map_cons, List.lookup_cons, List.lookup_cons]
    cases h : (i == a)
    · exact ih
    · rfl

/-- The classes that are not empty lie one after another. -/
theorem solids_lookup : ∀ (fs : List Layout) (n : Nat) (p : Progress) (i : Nat) (d : Layout), (∀ f ∈ fs, Good f) → fs[i]? = some d → d.empty = false →
    ((((fs.zipIdx n).filter (! ·.1.empty)).map (·.2)).zip (offsets true p (((fs.zipIdx n).filter (! ·.1.empty)).map (·.1)))).lookup (n + i) =
      some (roundUp (membersEnd (solid (fs.take i)) p.size) d.align) := by
  intro fs
  induction fs with
  | nil => intro n p i d _ h; simp at h
  | cons f fs ih =>
    intro n p i d hg hi hd
    rcases i with _ | i
    · simp only [List.getElem?_cons_zero, Option.some.injEq] at hi
      subst hi
      rw [List.zipIdx_cons, List.filter_cons_of_pos (by simp [hd])]
      simp [offsets, solid, membersEnd, baseOffset, hd]
    · simp only [List.getElem?_cons_succ] at hi
      cases hf : f.empty
      · rw [List.zipIdx_cons, List.filter_cons_of_pos (by simp [hf])]
        have hs : Solid f := by
          rcases hg f (by simp) with hz | hs
          · rw [hz.empty] at hf; simp at hf
          · exact hs
        obtain ⟨-, h2, h3, -⟩ := hs.proper
        have := ih (n + 1) (placeBase true p f) i d (fun g hg' => hg g (by simp [hg'])) hi hd
        simp only [List.map_cons, offsets, List.zip_cons_cons, List.lookup_cons]
        have hne : (n + (i + 1) == n) = false := by simp
        rw [hne, show n + (i + 1) = n + 1 + i by omega]
        refine this.trans ?_
        rw [List.take_succ_cons, solid_cons, hf, if_neg (by simp)]
        simp only [List.cons_append, List.nil_append, membersEnd, placeBase, hf, Bool.and_false, Bool.false_and, Bool.false_eq_true, if_false, baseOffset, if_true, hs.nv]
        rw [Lay.roundUp_eq _ _ h3]
      · rw [List.zipIdx_cons, List.filter_cons_of_neg (by simp [hf])]
        have := ih (n + 1) p i d (fun g hg' => hg g (by simp [hg'])) hi hd
        rw [show n + (i + 1) = n + 1 + i by omega]
        refine this.trans ?_
        rw [List.take_succ_cons, solid_cons, hf, if_pos rfl, List.nil_append]

theorem structAt_some {ds : List Layout} {i : Nat} {d : Layout} (hi : ds[i]? = some d) (hd : d.empty = false) :
    structAt (ds.map Layout.foot) i = some (membersEnd (solid (ds.take i)) 0 + padding (membersEnd (solid (ds.take i)) 0) d.align) := by
  have : (ds.map Layout.foot)[i]? = some (some (d.size, d.align)) := by
    rw [List.getElem?_map, hi]; simp [Layout.foot, hd]
  simp only [structAt, this, solid, List.map_take]

/-- A callable that is not empty lies in `overload` where it would lie in a struct. -/
theorem overloadAt_spec {fs : List Layout} (h : ∀ f ∈ fs, Good f) {i : Nat} {d : Layout} (hi : fs[i]? = some d) (hd : d.empty = false) :
    (overloadAt true fs).lookup i = structAt (fs.map Layout.foot) i := by
  have hdg : Good d := h d (List.mem_of_getElem? hi)
  rw [structAt_some hi hd, ← Lay.roundUp_eq _ _ (hdg.proper hd).2.2.1]
  simp only [overloadAt]
  rw [order_spec, lookup_map, baseOffset_start, List.map_append, List.map_append, offsets_append,
    List.zip_append (by simp [offsets_length])]
  have hz : (((fs.zipIdx.filter (·.1.empty)).map (·.1)).foldl (placeBase true) .start).size = 0 := by
    have hall : solid ((fs.zipIdx.filter (·.1.empty)).map (·.1)) = [] := by
      rw [solid_nil_iff]
      simp only [List.all_eq_true, List.mem_map, List.mem_filter]
      rintro x ⟨y, ⟨-, hy⟩, rfl⟩
      exact hy
    rcases bases_ebo ((fs.zipIdx.filter (·.1.empty)).map (·.1)) .start (by
      intro x hx
      simp only [List.mem_map, List.mem_filter] at hx
      obtain ⟨⟨y, k⟩, ⟨hy, -⟩, rfl⟩ := hx
      exact h y (List.mem_of_getElem? (List.mk_mem_zipIdx_iff_getElem?.1 hy))) with ⟨h1, -⟩ | h1
    · rw [h1, hall]; rfl
    · rw [h1]; rfl
  rw [lookup_append_none]
  · have := solids_lookup fs 0 ((((fs.zipIdx.filter (·.1.empty)).map (·.1)).foldl (placeBase true) .start)) i d h hi hd
    rw [Nat.zero_add] at this
    rw [this, hz]
    simp
  · intro x hx
    have hx1 := (List.of_mem_zip hx).1
    simp only [List.mem_map, List.mem_filter] at hx1
    obtain ⟨⟨y, k⟩, ⟨hy, he⟩, hk⟩ := hx1
    intro hc
    have hy' := List.mk_mem_zipIdx_iff_getElem?.1 hy
    simp only at hk he
    rw [hk, hc, hi] at hy'
    cases hy'
    rw [hd] at he; simp at he

theorem valueAt_zero {d : Layout} (h : d.Proper) : valueAt true d = some 0 := by
  have hs := stdTuple_spec h
  have hne : (stdTuple d).empty = false := rfl
  have hl := lamOf_one (hs.1.proper hne)
  have hle : (lamOf [stdTuple d]).empty = false := rfl
  have := overloadAt_spec (fs := [lam, lamOf [stdTuple d]]) (by
    intro f hf
    rcases List.mem_cons.1 hf with rfl | hf
    · exact .inl lam_zero
    · rw [List.mem_singleton.1 hf]; exact hl.1) (i := 1) (d := lamOf [stdTuple d]) rfl hle
  rw [valueAt, this, structAt_some (d := lamOf [stdTuple d]) rfl hle]
  have h0 : solid (List.take 1 [lam, lamOf [stdTuple d]]) = [] := rfl
  rw [h0, memberOffset_start, memberOffset_start]
  have h1 : memberOffset (placeBase false .start lam) (classLayout false [] [d]) = 0 := by
    have : (placeBase false .start lam).size = 0 := rfl
    rw [memberOffset, this, roundUp_zero]
  rw [h1]
  simp only [membersEnd, Option.map_some, Nat.add_zero, Nat.zero_add]
  rw [Lay.padding_zero 0 _ (Nat.dvd_zero _)]

theorem pow2_max {a b : Nat} (ha : Pow2 a) (hb : Pow2 b) : a ∣ max a b ∧ b ∣ max a b ∧ Pow2 (max a b) := by
  obtain ⟨k, rfl⟩ := ha
  obtain ⟨l, rfl⟩ := hb
  rcases Nat.le_total k l with h | h
  · rw [Nat.max_eq_right (Nat.pow_le_pow_right (by omega) h)]
    exact ⟨Nat.pow_dvd_pow 2 h, Nat.dvd_refl _, l, rfl⟩
  · rw [Nat.max_eq_left (Nat.pow_le_pow_right (by omega) h)]
    exact ⟨Nat.dvd_refl _, Nat.pow_dvd_pow 2 h, k, rfl⟩

/-- Of elements, the value lies where it would lie in a struct. -/
theorem storedAt_spec (ds rest : List Layout) (h : ∀ d ∈ ds, Element d) (hr : ∀ d ∈ rest, Good d) (i : Nat) :
    storedAt true ds (ds.map (element true) ++ rest) i = structAt (ds.map Layout.foot) i := by
  have hg : ∀ f ∈ ds.map (element true) ++ rest, Good f := by
    intro f hf
    rcases List.mem_append.1 hf with hf | hf
    · obtain ⟨d, hd, rfl⟩ := List.mem_map.1 hf
      exact (element_spec (h d hd)).1
    · exact hr f hf
  rw [storedAt]
  rcases hi : ds[i]? with _ | d
  · simp [structAt, hi]
  · cases hd : d.empty
    · have hel := h d (List.mem_of_getElem? hi)
      have hp : d.Proper := hel.resolve_left (by simp [hd])
      obtain ⟨hlt, -⟩ := List.getElem?_eq_some_iff.1 hi
      have hfi : (ds.map (element true) ++ rest)[i]? = some (element true d) := by
        rw [List.getElem?_append_left (by simpa using hlt), List.getElem?_map, hi]; rfl
      have hf := (element_spec hel).2
      have he : (element true d).empty = false := by
        rw [Bool.eq_false_iff]
        intro hc
        rw [foot_eq_none.2 hc] at hf
        rw [foot_eq_none.1 hf.symm] at hd; simp at hd
      have hal : (element true d).align = d.align := by
        simp only [Layout.foot, he, hd, Bool.false_eq_true, if_false, Option.some.injEq, Prod.mk.injEq] at hf
        exact hf.2
      have hsol : solid ((ds.map (element true) ++ rest).take i) = solid (ds.take i) := by
        rw [List.take_append_of_le_length (by simp; omega), ← List.map_take]
        unfold solid
        rw [List.map_map]
        congr 1
        exact List.map_congr_left fun e he => (element_spec (h e (List.mem_of_mem_take he))).2
      simp only [hd, Bool.false_eq_true, if_false]
      rw [overloadAt_spec hg hfi he, valueAt_zero hp, structAt_some hfi he, structAt_some hi hd, hsol, hal]
      rfl
    · simp [structAt, hi, Layout.foot, hd]

theorem strictest_dvd : ∀ (ms : List (Nat × Nat)) (a : Nat), Pow2 a → (∀ m ∈ ms, Pow2 m.2) →
    a ∣ ms.foldl (fun a m => max a m.2) a ∧ (∀ m ∈ ms, m.2 ∣ ms.foldl (fun a m => max a m.2) a) ∧ Pow2 (ms.foldl (fun a m => max a m.2) a) := by
  intro ms
  induction ms with
  | nil => intro a ha _; exact ⟨Nat.dvd_refl _, by simp, ha⟩
  | cons m ms ih =>
    intro a ha h
    have hm := h m (by simp)
    have hmax := pow2_max ha hm
    obtain ⟨i1, i2, i3⟩ := ih (max a m.2) hmax.2.2 (fun x hx => h x (by simp [hx]))
    rw [List.foldl_cons]
    refine ⟨Nat.dvd_trans hmax.1 i1, ?_, i3⟩
    intro x hx
    rcases List.mem_cons.1 hx with rfl | hx
    · exact Nat.dvd_trans hmax.2.1 i1
    · exact i2 x hx

theorem membersEnd_mono (ms : List (Nat × Nat)) (d : Nat × Nat) (rest : List (Nat × Nat)) (off : Nat) :
    membersEnd ms off + padding (membersEnd ms off) d.2 + d.1 ≤ membersEnd (ms ++ d :: rest) off := by
  rw [Lay.membersEnd_append]
  obtain ⟨s, a⟩ := d
  rw [membersEnd]
  exact Lay.le_membersEnd _ _

theorem solid_append (xs ys : List Layout) : solid (xs ++ ys) = solid xs ++ solid ys := by simp [solid]

/-- Members of a struct lie inside it, aligned, and do not overlap. -/
theorem struct_stored (ds : List Layout) (h : ∀ d ∈ ds, Element d) (h2 : ∀ d ∈ ds, d.empty = false → Pow2 d.align) (size align : Nat)
    (hs : ∀ m, structOf (ds.map Layout.foot) = some m → m = (size, align)) : Stored size align ds (structAt (ds.map Layout.foot)) := by
  have hne : ∀ i o, structAt (ds.map Layout.foot) i = some o → ∃ d, ds[i]? = some d ∧ d.empty = false := by
    intro i o ho
    rcases hi : ds[i]? with _ | d
    · simp [structAt, hi] at ho
    · refine ⟨d, rfl, ?_⟩
      cases hd : d.empty
      · rfl
      · simp [structAt, hi, Layout.foot, hd] at ho
  have hsplit : ∀ (i : Nat) (d : Layout), ds[i]? = some d → d.empty = false → solid ds = solid (ds.take i) ++ (d.size, d.align) :: solid (ds.drop (i + 1)) := by
    intro i d hi hd
    obtain ⟨hlt, he⟩ := List.getElem?_eq_some_iff.1 hi
    have h3 : ds = ds.take i ++ d :: ds.drop (i + 1) := by
      rw [← he, List.getElem_cons_drop, List.take_append_drop]
    rw [congrArg solid h3, solid_append, solid_cons d, hd]
    simp
  have hst : ∀ (i : Nat) (d : Layout), ds[i]? = some d → d.empty = false → membersEnd (solid ds) 0 ≤ size ∧ strictest (solid ds) = align := by
    intro i d hi hd
    have hn : solid ds ≠ [] := by rw [hsplit i d hi hd]; simp
    have := hs _ (by rw [structOf_solid, if_neg hn])
    simp only [Prod.mk.injEq] at this
    rw [structSize, if_neg hn] at this
    exact ⟨by omega, this.2⟩
  refine ⟨?_, hne, ?_, ?_, ?_⟩
  · intro i d hi hd
    exact ⟨_, structAt_some hi hd⟩
  · intro i d o hi ho
    obtain ⟨d', hi', hd⟩ := hne i o ho
    rw [hi] at hi'; cases hi'
    rw [structAt_some hi hd] at ho
    cases ho
    have h3 := membersEnd_mono (solid (ds.take i)) (d.size, d.align) (solid (ds.drop (i + 1))) 0
    rw [← hsplit i d hi hd] at h3
    exact Nat.le_trans h3 (hst i d hi hd).1
  · intro i d o a hi ho ha
    obtain ⟨d', hi', hd⟩ := hne i o ho
    rw [hi] at hi'; cases hi'
    rw [structAt_some hi hd] at ho
    cases ho
    have hp : d.Proper := (h d (List.mem_of_getElem? hi)).resolve_left (by simp [hd])
    have h4 : d.align ∣ align := by
      rw [← (hst i d hi hd).2]
      refine (strictest_dvd (solid ds) 1 ⟨0, rfl⟩ ?_).2.1 (d.size, d.align) (by rw [hsplit i d hi hd]; simp)
      intro m hm
      simp only [solid, List.mem_filterMap, List.mem_map, id, exists_eq_right] at hm
      obtain ⟨e, he, hm⟩ := hm
      cases hee : e.empty
      · simp [Layout.foot, hee] at hm
        subst hm
        exact h2 e he hee
      · simp [Layout.foot, hee] at hm
    refine Nat.dvd_add (Nat.dvd_trans h4 ha) ?_
    rw [← Lay.roundUp_eq _ _ hp.2.2.1]
    exact dvd_roundUp _ _
  · intro i j d e o q hij hi hj ho hq
    obtain ⟨d', hi', hd⟩ := hne i o ho
    rw [hi] at hi'; cases hi'
    obtain ⟨e', hj', he⟩ := hne j q hq
    rw [hj] at hj'; cases hj'
    rw [structAt_some hi hd] at ho
    rw [structAt_some hj he] at hq
    cases ho; cases hq
    have htake : solid (ds.take j) = solid (ds.take i) ++ (d.size, d.align) :: solid ((ds.take j).drop (i + 1)) := by
      have hij' : (ds.take j)[i]? = some d := by rw [List.getElem?_take_of_lt hij, hi]
      obtain ⟨hlt, hge⟩ := List.getElem?_eq_some_iff.1 hij'
      have h3 : ds.take j = (ds.take j).take i ++ d :: (ds.take j).drop (i + 1) := by
        rw [← hge, List.getElem_cons_drop, List.take_append_drop]
      rw [congrArg solid h3, solid_append, solid_cons d, hd, List.take_take, Nat.min_eq_left (by omega)]
      simp
    have h3 := membersEnd_mono (solid (ds.take i)) (d.size, d.align) (solid ((ds.take j).drop (i + 1))) 0
    rw [← htake] at h3
    simp only at h3
    omega

/-- `uncaptured(vs...) >> f` -/
theorem uncapture_stored (f : Layout) (hf : Pow2 f.align) : ∀ vs : List Layout, (∀ v ∈ vs, Element v) → (∀ v ∈ vs, v.empty = false → Pow2 v.align) →
    Pow2 (uncapture false f vs).align ∧
    (∀ i v, vs[i]? = some v → v.empty = false → uncaptureAt false f vs i + v.size ≤ (uncapture false f vs).nv ∧ v.align ∣ uncaptureAt false f vs i ∧
      v.align ∣ (uncapture false f vs).align) ∧
    (∀ i j v w, i < j → vs[i]? = some v → vs[j]? = some w → v.empty = false → w.empty = false →
      uncaptureAt false f vs i + v.size ≤ uncaptureAt false f vs j) ∧
    (f.align ∣ uncaptureAt false f vs vs.length ∧ f.align ∣ (uncapture false f vs).align ∧ uncaptureAt false f vs vs.length + f.nv ≤ (uncapture false f vs).nv ∧
      ∀ i v, vs[i]? = some v → v.empty = false → uncaptureAt false f vs i + v.size ≤ uncaptureAt false f vs vs.length) := by
  intro vs
  induction vs with
  | nil =>
    intro _ _
    refine ⟨hf, by simp, by simp, ?_⟩
    exact ⟨Nat.dvd_zero _, Nat.dvd_refl _, by simp [uncaptureAt, uncapture], by simp⟩
  | cons v vs ih =>
    intro hv hp
    obtain ⟨i1, i2, i3, i4⟩ := ih (fun w hw => hv w (by simp [hw])) (fun w hw => hp w (by simp [hw]))
    generalize hU : uncapture false f vs = U at *
    have hu : Pow2 (uncaptured v).align ∧ (v.empty = false → (uncaptured v).nv = v.size ∧ (uncaptured v).align = v.align) := by
      unfold uncaptured
      cases he : v.empty
      · have hvp : v.Proper := (hv v (by simp)).resolve_left (by simp [he])
        have hl := lamOf_one hvp
        rw [lamOf] at hl
        have hee : (classLayout false [] [v]).empty = false := rfl
        have hfoot := hl.2
        simp only [Layout.foot, hee, he, Bool.false_eq_true, if_false, Option.some.injEq, Prod.mk.injEq] at hfoot
        have hnv : (classLayout false [] [v]).nv = (classLayout false [] [v]).size := by
          rcases hl.1 with hz | hz
          · rw [hz.empty] at hee; simp at hee
          · exact hz.nv
        simp only [Bool.false_eq_true, if_false]
        exact ⟨by rw [hfoot.2]; exact hp v (by simp) he, fun _ => ⟨by rw [hnv, hfoot.1], hfoot.2⟩⟩
      · simp only [if_true]
        exact ⟨⟨0, rfl⟩, fun h => absurd h (by simp)⟩
    have h0 : (placeBase false .start (uncaptured v)).size = (uncaptured v).nv := by
      simp [placeBase, baseOffset_start]
    have ha : (placeBase false .start (uncaptured v)).align = (uncaptured v).align := by
      obtain ⟨k, hk⟩ := hu.1
      have : 0 < 2 ^ k := Nat.two_pow_pos k
      simp only [placeBase, Progress.start]
      omega
    generalize hP : placeBase false .start (uncaptured v) = P at *
    have hUpos : 0 < U.align := by
      obtain ⟨k, hk⟩ := i1
      rw [hk]; exact Nat.two_pow_pos k
    have hoff : P.size ≤ baseOffset false P U ∧ U.align ∣ baseOffset false P U := by
      simp only [baseOffset, Bool.false_eq_true, if_false]
      split
      · exact ⟨Nat.le_trans (Nat.le_succ _) (Lay.le_roundUp _ _ hUpos), dvd_roundUp _ _⟩
      · exact ⟨Lay.le_roundUp _ _ hUpos, dvd_roundUp _ _⟩
    have hmax := pow2_max hu.1 i1
    have hcA : (classLayout false [uncaptured v, U] []).align = max (uncaptured v).align U.align := by
      simp only [classLayout, List.foldl_cons, List.foldl_nil, hP]
      simp only [placeBase, ha]
    have hcN : baseOffset false P U + U.nv ≤ (classLayout false [uncaptured v, U] []).nv := by
      have e1 : (classLayout false [uncaptured v, U] []).nv = roundUp (baseOffset false P U + U.nv) (max (uncaptured v).align U.align) := by
        simp only [classLayout, List.foldl_cons, List.foldl_nil, hP]
        simp only [placeBase, ha, Bool.false_and, Bool.false_eq_true, if_false]
      rw [e1]
      exact Lay.le_roundUp _ _ (by omega)
    have hUn : uncapture false f (v :: vs) = classLayout false [uncaptured v, U] [] := by rw [uncapture, hU]
    have hat0 : uncaptureAt false f (v :: vs) 0 = 0 := by
      simp [uncaptureAt, baseOffset_start, memberOffset_start]
    have hats : ∀ i, uncaptureAt false f (v :: vs) (i + 1) = baseOffset false P U + uncaptureAt false f vs i := by
      intro i; rw [uncaptureAt, hP, hU]
    rw [hUn, hcA]
    refine ⟨hmax.2.2, ?_, ?_, ?_⟩
    · intro i w hi hw
      rcases i with _ | i
      · simp only [List.getElem?_cons_zero, Option.some.injEq] at hi
        subst hi
        obtain ⟨u1, u2⟩ := hu.2 hw
        rw [hat0]
        exact ⟨by omega, Nat.dvd_zero _, by rw [← u2]; exact hmax.1⟩
      · simp only [List.getElem?_cons_succ] at hi
        obtain ⟨j1, j2, j3⟩ := i2 i w hi hw
        rw [hats]
        exact ⟨by omega, Nat.dvd_add (Nat.dvd_trans j3 hoff.2) j2, Nat.dvd_trans j3 hmax.2.1⟩
    · intro i j w x hij hi hj hw hx
      rcases j with _ | j
      · omega
      · rw [hats]
        rcases i with _ | i
        · simp only [List.getElem?_cons_zero, Option.some.injEq] at hi
          subst hi
          obtain ⟨u1, -⟩ := hu.2 hw
          rw [hat0]; omega
        · simp only [List.getElem?_cons_succ] at hi hj
          have := i3 i j w x (by omega) hi hj hw hx
          rw [hats]; omega
    · obtain ⟨j1, j2, j3, j4⟩ := i4
      rw [List.length_cons, hats]
      refine ⟨Nat.dvd_add (Nat.dvd_trans j2 hoff.2) j1, Nat.dvd_trans j2 hmax.2.1, by omega, ?_⟩
      intro i w hi hw
      rcases i with _ | i
      · simp only [List.getElem?_cons_zero, Option.some.injEq] at hi
        subst hi
        obtain ⟨u1, -⟩ := hu.2 hw
        rw [hat0]; omega
      · simp only [List.getElem?_cons_succ] at hi
        have := j4 i w hi hw
        rw [hats]; omega

end Pigro.Ms
