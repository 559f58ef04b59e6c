import Verif.Proofs.MsOffsets
import Verif.Props.MsLayout
/-!
# C102: where values are stored with the Microsoft compiler
-/
namespace Pigro.Ms
open Lay (roundUp Foot structOf)

/-- From what a class takes to its size and alignment. -/
theorem foot_some {d : Layout} {m : Nat × Nat} (h : d.foot = some m) : m = (d.size, d.align) := by
  cases he : d.empty
  · simp [Layout.foot, he] at h
    exact h.symm
  · simp [Layout.foot, he] at h

/-- **C102**, tuples. In a `compressed_tuple` of any types, every value that is not of an empty type lies where it would lie in a struct of them; so it is inside the tuple, aligned, and
shares no byte with another value. Values of empty types are not stored. -/
theorem C102_tuple (ds : List Layout) (h : ∀ d ∈ ds, AnyType d) (h2 : ∀ d ∈ ds, d.empty = false → Pow2 d.align) :
    (∀ i, tupleAt true ds i = structAt (ds.map Layout.foot) i) ∧ Stored (tuple true ds).size (tuple true ds).align ds (tupleAt true ds) := by
  have he : ∀ i, tupleAt true ds i = structAt (ds.map Layout.foot) i := by
    intro i
    have := storedAt_spec ds [] h (by simp) i
    rw [List.append_nil] at this
    simp only [tupleAt, this, baseOffset_start, Nat.zero_add]
    simp
  refine ⟨he, ?_⟩
  rw [funext he]
  refine struct_stored ds h h2 _ _ fun m hm => ?_
  rw [← (tuple_spec ds h).2] at hm
  exact foot_some hm

/-- `compressed_tuple<char, E, double, E, int>`: at 0, 8 and 16. -/
example : (List.range 6).map (tupleAt true [scalar 1, lam, scalar 8, classLayout false [lam, lam, lam] [], scalar 4]) =
      [some 0, none, some 8, none, some 16, none] ∧
    Stored 24 8 [scalar 1, lam, scalar 8, classLayout false [lam, lam, lam] [], scalar 4]
      (tupleAt true [scalar 1, lam, scalar 8, classLayout false [lam, lam, lam] [], scalar 4]) := by
  have h := C102_tuple [scalar 1, lam, scalar 8, classLayout false [lam, lam, lam] [], scalar 4] (by decide) (by
    intro d hd he
    simp only [List.mem_cons, List.not_mem_nil, or_false] at hd
    rcases hd with rfl | rfl | rfl | rfl | rfl
    · exact ⟨0, rfl⟩
    · exact absurd he (by decide)
    · exact ⟨3, rfl⟩
    · exact absurd he (by decide)
    · exact ⟨2, rfl⟩)
  exact ⟨by decide, h.2⟩

/-- **C102**, binders. Callable and tuple of `t >> f` and `t << f` lie where they would lie in a struct of both. -/
theorem C102_bound (f t : Layout) (hf : AnyType f) (ht : AnyType t) (hf2 : f.empty = false → Pow2 f.align) (ht2 : t.empty = false → Pow2 t.align) :
    (∀ i, boundAt true f t i = structAt [f.foot, t.foot] i) ∧ Stored (bound true f t).size (bound true f t).align [f, t] (boundAt true f t) := by
  have h : ∀ d ∈ [f, t], AnyType d := by
    intro d hd
    simp only [List.mem_cons, List.not_mem_nil, or_false] at hd
    rcases hd with rfl | rfl <;> assumption
  have h2 : ∀ d ∈ [f, t], d.empty = false → Pow2 d.align := by
    intro d hd
    simp only [List.mem_cons, List.not_mem_nil, or_false] at hd
    rcases hd with rfl | rfl <;> assumption
  have he : ∀ i, boundAt true f t i = structAt ([f, t].map Layout.foot) i := by
    intro i
    have := storedAt_spec [f, t] [lam] h (by simpa using .inl lam_zero) i
    simp only [List.map_cons, List.map_nil, List.cons_append, List.nil_append] at this
    simp only [boundAt, this, baseOffset_start, Nat.zero_add]
    simp
  refine ⟨he, ?_⟩
  rw [funext he]
  refine struct_stored [f, t] h h2 _ _ fun m hm => ?_
  have := (bound_spec hf ht).2
  simp only [List.map_cons, List.map_nil] at hm
  rw [hm] at this
  exact foot_some this

/-- The cache of a lazy function and its dependencies, `compressed_tuple{ f, a } << [cache]`, with a cache of 8 bytes and a dependency of 4: at 0 and 8. -/
example : boundAt true (lamOf [⟨8, 8, 4, false, false, false⟩]) (tuple true [lam, scalar 4]) 0 = some 0 ∧
    boundAt true (lamOf [⟨8, 8, 4, false, false, false⟩]) (tuple true [lam, scalar 4]) 1 = some 8 := by
  have h := (C102_bound (lamOf [⟨8, 8, 4, false, false, false⟩]) (tuple true [lam, scalar 4]) (by decide) (by decide) (fun _ => ⟨2, by decide⟩) (fun _ => ⟨2, by decide⟩)).1
  rw [h, h]
  decide

/-- **C102**, `overload`. A callable that is not empty lies where it would lie in a struct of the callables, in spite of the reordering. -/
theorem C102_overload (fs : List Layout) (h : ∀ d ∈ fs, Callable d) (i : Nat) (d : Layout) (hi : fs[i]? = some d) (hd : d.empty = false) :
    (overloadAt true fs).lookup i = structAt (fs.map Layout.foot) i :=
  overloadAt_spec (fun f hf => (h f hf).good) hi hd

/-- `overload{ [a], [], [b] }`, with 1 and 4 bytes: at 0 and 4. -/
example : (overloadAt true [lamOf [scalar 1], lam, lamOf [scalar 4]]).lookup 0 = some 0 ∧ (overloadAt true [lamOf [scalar 1], lam, lamOf [scalar 4]]).lookup 2 = some 4 := by
  rw [C102_overload _ (by decide) 0 (lamOf [scalar 1]) rfl rfl, C102_overload _ (by decide) 2 (lamOf [scalar 4]) rfl rfl]
  decide

/-- The empty ones lie at offset 0, all of them. -/
theorem C102_overload_empty (fs : List Layout) (h : ∀ d ∈ fs, Callable d) (i : Nat) (d : Layout) (hi : fs[i]? = some d) (hd : d.empty = true) :
    (overloadAt true fs).lookup i = some 0 := by
  have hg : ∀ f ∈ fs, f.empty = true → Zero f := by
    intro f hf he
    rcases (h f hf).good with hz | hs
    · exact hz
    · rw [hs.proper.1] at he; simp at he
  have key : ∀ (es : List (Layout × Nat)) (p : Progress) (rest : List (Nat × Nat)), (∀ x ∈ es, Zero x.1) → (∃ x ∈ es, x.2 = i) →
      ((es.map (·.2)).zip (offsets true p (es.map (·.1))) ++ rest).lookup i = some 0 := by
    intro es
    induction es with
    | nil => intro p rest _ hx; simp at hx
    | cons e es ih =>
      intro p rest hz hx
      have he := hz e (by simp)
      simp only [List.map_cons, offsets, List.zip_cons_cons, List.cons_append, List.lookup_cons]
      cases hie : (i == e.2)
      · refine ih _ _ (fun x hx => hz x (by simp [hx])) ?_
        obtain ⟨x, hx, hxi⟩ := hx
        rcases List.mem_cons.1 hx with rfl | hx
        · simp [hxi] at hie
        · exact ⟨x, hx, hxi⟩
      · simp [baseOffset, he.empty, he.nv]
  simp only [overloadAt]
  rw [order_spec, lookup_map, baseOffset_start, List.map_append, List.map_append, offsets_append,
    List.zip_append (by simp [offsets_length]), key]
  · rfl
  · intro x hx
    obtain ⟨hx1, hx2⟩ := List.mem_filter.1 hx
    obtain ⟨y, k⟩ := x
    exact hg y (List.mem_of_getElem? (List.mk_mem_zipIdx_iff_getElem?.1 hx1)) hx2
  · exact ⟨(d, i), List.mem_filter.2 ⟨List.mk_mem_zipIdx_iff_getElem?.2 hi, hd⟩, rfl⟩

example : (overloadAt true [lamOf [scalar 1], lam, lamOf [scalar 4]]).lookup 1 = some 0 :=
  C102_overload_empty _ (by decide) 1 lam rfl rfl

/-- **C102**, `uncaptured(vs...) >> f`. This is larger than a struct at times (`C86`), but the values lie inside it, aligned, and do not share bytes with one another or with `f`. -/
theorem C102_uncapture (f : Layout) (vs : List Layout) (hf : Pow2 f.align) (h : ∀ v ∈ vs, AnyType v) (h2 : ∀ v ∈ vs, v.empty = false → Pow2 v.align) :
    Stored (uncapture false f vs).nv (uncapture false f vs).align vs (fun i => if (vs[i]?.map (·.empty)) = some false then some (uncaptureAt false f vs i) else none) ∧
    f.align ∣ uncaptureAt false f vs vs.length ∧ uncaptureAt false f vs vs.length + f.nv ≤ (uncapture false f vs).nv ∧
    ∀ i v, vs[i]? = some v → v.empty = false → uncaptureAt false f vs i + v.size ≤ uncaptureAt false f vs vs.length := by
  obtain ⟨-, h3, h4, h5, -, h6, h7⟩ := uncapture_stored f hf vs h h2
  refine ⟨⟨?_, ?_, ?_, ?_, ?_⟩, h5, h6, h7⟩
  · intro i d hi hd
    exact ⟨_, by simp only [hi, Option.map_some, hd]; rfl⟩
  · intro i o ho
    split at ho
    · rename_i hc
      obtain ⟨d, hd, he⟩ := Option.map_eq_some_iff.1 hc
      exact ⟨d, hd, he⟩
    · simp at ho
  · intro i d o hi ho
    simp only [hi, Option.map_some] at ho
    split at ho
    · rename_i hc
      cases ho
      exact (h3 i d hi (by simpa using hc)).1
    · simp at ho
  · intro i d o a hi ho ha
    simp only [hi, Option.map_some] at ho
    split at ho
    · rename_i hc
      cases ho
      obtain ⟨-, g1, g2⟩ := h3 i d hi (by simpa using hc)
      exact Nat.dvd_add (Nat.dvd_trans g2 ha) g1
    · simp at ho
  · intro i j d e o q hij hi hj ho hq
    simp only [hi, hj, Option.map_some] at ho hq
    split at ho
    · rename_i hc
      split at hq
      · rename_i hc'
        cases ho; cases hq
        exact h4 i j d e hij hi hj (by simpa using hc) (by simpa using hc')
      · simp at hq
    · simp at ho

/-- `uncaptured(E, E, 'a', 5) >> f`: two empty classes take 8 bytes here; the values lie at 8 and 16, and `f` at 24. -/
example : uncaptureAt false (lamOf [scalar 8]) [lam, lam, scalar 1, scalar 4] 2 + 1 ≤ uncaptureAt false (lamOf [scalar 8]) [lam, lam, scalar 1, scalar 4] 3 ∧
    uncaptureAt false (lamOf [scalar 8]) [lam, lam, scalar 1, scalar 4] 3 + 4 ≤ uncaptureAt false (lamOf [scalar 8]) [lam, lam, scalar 1, scalar 4] 4 := by
  have h := C102_uncapture (lamOf [scalar 8]) [lam, lam, scalar 1, scalar 4] ⟨3, by decide⟩ (by decide) (by
    intro d hd he
    simp only [List.mem_cons, List.not_mem_nil, or_false] at hd
    rcases hd with rfl | rfl | rfl | rfl
    · exact absurd he (by decide)
    · exact absurd he (by decide)
    · exact ⟨0, rfl⟩
    · exact ⟨2, rfl⟩)
  exact ⟨h.1.apart 2 3 (scalar 1) (scalar 4) _ _ (by decide) rfl rfl rfl rfl, h.2.2.2 3 (scalar 4) rfl rfl⟩

/-- **C102**, nested. What is stored in something that is itself stored is inside the outer object, aligned, and apart from everything else in it. -/
theorem C102_nested {size align : Nat} {ds es : List Layout} {at_ at' : Nat → Option Nat} (h : Stored size align ds at_) {j : Nat} {d : Layout} {o : Nat}
    (hj : ds[j]? = some d) (ho : at_ j = some o) (h' : Stored d.size d.align es at') (i : Nat) (e : Layout) (q : Nat) (hi : es[i]? = some e) (hq : at' i = some q) :
    o + q + e.size ≤ size ∧ (∀ a, align ∣ a → e.align ∣ a + (o + q)) ∧
    ∀ k c r, k ≠ j → ds[k]? = some c → at_ k = some r → r + c.size ≤ o + q ∨ o + q + e.size ≤ r := by
  have h1 := h.inside j d o hj ho
  have h2 := h'.inside i e q hi hq
  refine ⟨by omega, ?_, ?_⟩
  · intro a ha
    rw [← Nat.add_assoc]
    exact h'.aligned i e q (a + o) hi hq (h.aligned j d o a hj ho ha)
  · intro k c r hk hc hr
    rcases Nat.lt_or_ge k j with hkj | hkj
    · have := h.apart k j c d r o hkj hc hj hr ho
      omega
    · have := h.apart j k d c o r (by omega) hj hc ho hr
      omega

/-- The values of `compressed_tuple{ vs... } << f`: each is inside the object, aligned, and shares no byte with `f`. For a lazy function `f` has the cache (lazy.h:48-66). -/
theorem C102_bound_tuple (f : Layout) (ds : List Layout) (hf : AnyType f) (hf2 : f.empty = false → Pow2 f.align) (h : ∀ d ∈ ds, AnyType d)
    (h2 : ∀ d ∈ ds, d.empty = false → Pow2 d.align) (i : Nat) (d : Layout) (hi : ds[i]? = some d) (hd : d.empty = false) :
    ∃ o q, boundAt true f (tuple true ds) 1 = some o ∧ tupleAt true ds i = some q ∧ o + q + d.size ≤ (bound true f (tuple true ds)).size ∧
      (∀ a, (bound true f (tuple true ds)).align ∣ a → d.align ∣ a + (o + q)) ∧ (f.empty = false → boundAt true f (tuple true ds) 0 = some 0 ∧ f.size ≤ o + q) := by
  obtain ⟨ht, hft⟩ := tuple_spec ds h
  have hs := C102_tuple ds h h2
  obtain ⟨q, hq⟩ := hs.2.all i d hi hd
  have hne : solid ds ≠ [] := by
    intro hc
    rw [solid_nil_iff, List.all_eq_true] at hc
    have := hc d (List.mem_of_getElem? hi)
    rw [hd] at this; simp at this
  rw [structOf_solid, if_neg hne] at hft
  have hte : (tuple true ds).empty = false := by
    rw [Bool.eq_false_iff]
    intro hc
    rw [foot_eq_none.2 hc] at hft; simp at hft
  have hal : Pow2 (tuple true ds).align := by
    have := foot_some hft
    simp only [Prod.mk.injEq] at this
    rw [← this.2]
    refine (strictest_dvd (solid ds) 1 ⟨0, rfl⟩ ?_).2.2
    intro m hm
    simp only [solid, List.mem_filterMap, List.mem_map, id, exists_eq_right] at hm
    obtain ⟨e, he, hm⟩ := hm
    cases hee : e.empty
    · simp [Layout.foot, hee] at hm
      subst hm
      exact h2 e he hee
    · simp [Layout.foot, hee] at hm
  have hb := C102_bound f (tuple true ds) hf (.inr (ht.proper hte)) hf2 (fun _ => hal)
  obtain ⟨o, ho⟩ := hb.2.all 1 (tuple true ds) rfl hte
  obtain ⟨n1, n2, -⟩ := C102_nested hb.2 (j := 1) rfl ho hs.2 i d q hi hq
  refine ⟨o, q, ho, hq, n1, n2, fun hfe => ?_⟩
  have h0 : boundAt true f (tuple true ds) 0 = some 0 := by
    rw [hb.1]
    simp [structAt, Layout.foot, hfe, Lay.membersEnd, Lay.padding_zero 0 _ (Nat.dvd_zero _)]
  have := hb.2.apart 0 1 f (tuple true ds) 0 o (by omega) rfl rfl h0 ho
  exact ⟨h0, by omega⟩

example : ∃ o q, boundAt true (lamOf [scalar 1]) (tuple true [lam, scalar 4, scalar 2]) 1 = some o ∧ tupleAt true [lam, scalar 4, scalar 2] 2 = some q ∧
    o + q + 2 ≤ (bound true (lamOf [scalar 1]) (tuple true [lam, scalar 4, scalar 2])).size := by
  obtain ⟨o, q, h1, h2, h3, -⟩ := C102_bound_tuple (lamOf [scalar 1]) [lam, scalar 4, scalar 2] (by decide) (fun _ => ⟨0, by decide⟩) (by decide) (by
    intro d hd he
    simp only [List.mem_cons, List.not_mem_nil, or_false] at hd
    rcases hd with rfl | rfl | rfl
    · exact absurd he (by decide)
    · exact ⟨2, rfl⟩
    · exact ⟨1, rfl⟩) 2 (scalar 2) rfl rfl
  exact ⟨o, q, h1, h2, h3⟩

end Pigro.Ms
