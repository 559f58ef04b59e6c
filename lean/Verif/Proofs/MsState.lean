import Verif.Spec.MsState
import Verif.Props.MsOffsets
/-!
# Lemmas about where the state of lazy functions is stored
-/
namespace Pigro.Ms
open Lay (roundUp LTree Foot structOf)
variable {U : Type}

/-- The state of an object is well placed, and it is a type as any other. -/
structure Obj.OK (Γ : Types U) (o : Obj U) : Prop where
  any : AnyType o.layout
  pow : o.layout.empty = false → Pow2 o.layout.align
  parts : OneByOne Γ o.layout.size o.layout.align o.parts
  empty : o.layout.empty = true → o.parts = []

/-- What is stored. -/
def Obj.what (o : Obj U) : List (Piece U) := o.parts.map (·.2)

theorem OneByOne.nil {Γ : Types U} {size align : Nat} : OneByOne Γ size align [] := ⟨.nil, by simp, by simp⟩

/-- An object at an offset in another one. -/
theorem OneByOne.shift {Γ : Types U} {size align size' align' o : Nat} {parts : List (Nat × Piece U)} (h : OneByOne Γ size align parts) (hs : o + size ≤ size')
    (ha : ∀ a, align' ∣ a → align ∣ a + o) : OneByOne Γ size' align' (parts.map fun r => (o + r.1, r.2)) := by
  refine ⟨?_, ?_, ?_⟩
  · rw [List.pairwise_map]
    exact h.apart.imp fun {x y} hxy => by dsimp only; omega
  · intro x hx
    obtain ⟨r, hr, rfl⟩ := List.mem_map.1 hx
    have := h.inside r hr
    dsimp only; omega
  · intro x hx a hd
    obtain ⟨r, hr, rfl⟩ := List.mem_map.1 hx
    have := h.aligned r hr (a + o) (ha a hd)
    rw [Nat.add_assoc] at this
    exact this

/-- Objects stored apart, each with its parts. -/
theorem flat_spec {Γ : Types U} {size align : Nat} {at_ : Nat → Option Nat} {os : List (Obj U)} (h : Stored size align (os.map (·.layout)) at_) (ho : ∀ o ∈ os, o.OK Γ) :
    OneByOne Γ size align (flat at_ os) ∧ (flat at_ os).map (·.2) = os.flatMap Obj.what := by
  have hget : ∀ (i : Nat) (o : Obj U), os[i]? = some o → (os.map (·.layout))[i]? = some o.layout := by
    intro i o hi; rw [List.getElem?_map, hi]; rfl
  have hone : ∀ x ∈ os.zipIdx, OneByOne Γ size align (placed x.1 (at_ x.2)) := by
    rintro ⟨o, i⟩ hx
    have hi := List.mk_mem_zipIdx_iff_getElem?.1 hx
    dsimp only
    rcases hat : at_ i with _ | q
    · exact .nil
    · exact (ho o (List.mem_of_getElem? hi)).parts.shift (h.inside i _ q (hget i o hi) hat) (fun a ha => h.aligned i _ q a (hget i o hi) hat ha)
  refine ⟨⟨?_, ?_, ?_⟩, ?_⟩
  · rw [flat, List.pairwise_flatMap]
    refine ⟨fun x hx => (hone x hx).apart, ?_⟩
    rw [List.pairwise_iff_getElem]
    intro i j hi hj hij x hx y hy
    rw [List.length_zipIdx] at hi hj
    simp only [List.getElem_zipIdx, Nat.zero_add] at hx hy
    rcases hi' : at_ i with _ | p
    · rw [hi'] at hx; simp [placed] at hx
    · rcases hj' : at_ j with _ | q
      · rw [hj'] at hy; simp [placed] at hy
      · rw [hi'] at hx
        rw [hj'] at hy
        obtain ⟨r, hr, rfl⟩ := List.mem_map.1 hx
        obtain ⟨s, hs, rfl⟩ := List.mem_map.1 hy
        have h1 := (ho os[i] (List.getElem_mem hi)).parts.inside r hr
        have h2 := h.apart i j _ _ p q hij (hget i os[i] (List.getElem?_eq_getElem hi)) (hget j os[j] (List.getElem?_eq_getElem hj)) hi' hj'
        dsimp only; omega
  · intro x hx
    obtain ⟨y, hy, hxy⟩ := List.mem_flatMap.1 hx
    exact (hone y hy).inside x hxy
  · intro x hx
    obtain ⟨y, hy, hxy⟩ := List.mem_flatMap.1 hx
    exact (hone y hy).aligned x hxy
  · have hmap : ∀ x ∈ os.zipIdx, (placed x.1 (at_ x.2)).map (·.2) = Obj.what x.1 := by
      rintro ⟨o, i⟩ hx
      have hi := List.mk_mem_zipIdx_iff_getElem?.1 hx
      dsimp only
      have hok := ho o (List.mem_of_getElem? hi)
      rcases hat : at_ i with _ | q
      · have he : o.layout.empty = true := by
          cases he : o.layout.empty
          · obtain ⟨q, hq⟩ := h.all i _ (hget i o hi) he
            rw [hat] at hq; simp at hq
          · rfl
        simp [Obj.what, placed, hok.empty he]
      · simp [Obj.what, placed]
    rw [flat, List.map_flatMap]
    have : ∀ l : List (Obj U × Nat), (∀ x ∈ l, x ∈ os.zipIdx) → (l.flatMap fun x => (placed x.1 (at_ x.2)).map (·.2)) = (l.map (·.1)).flatMap Obj.what := by
      intro l
      induction l with
      | nil => intro _; rfl
      | cons x l ih =>
        intro hl
        rw [List.flatMap_cons, List.map_cons, List.flatMap_cons, hmap x (hl x (by simp)), ih fun y hy => hl y (by simp [hy])]
    rw [this _ fun _ hx => hx]
    simp

/-- The alignment of what is like a struct. -/
theorem pow2_struct {d : Layout} {ds : List Layout} (hd : d.foot = structOf (ds.map Layout.foot)) (h : ∀ e ∈ ds, e.empty = false → Pow2 e.align) (he : d.empty = false) :
    Pow2 d.align := by
  rw [structOf_solid] at hd
  split at hd
  · rw [foot_eq_none] at hd
    rw [hd] at he; simp at he
  · have := foot_some hd
    simp only [Prod.mk.injEq] at this
    rw [← this.2]
    refine (strictest_dvd (solid ds) 1 ⟨0, rfl⟩ ?_).2.2
    intro m hm
    simp only [solid, List.mem_filterMap, List.mem_map, id, exists_eq_right] at hm
    obtain ⟨e, hm1, hm⟩ := hm
    cases hee : e.empty
    · simp [Layout.foot, hee] at hm
      subst hm
      exact h e hm1 hee
    · simp [Layout.foot, hee] at hm

theorem struct_empty {d : Layout} {ds : List Layout} (hd : d.foot = structOf (ds.map Layout.foot)) (he : d.empty = true) : ∀ e ∈ ds, e.empty = true := by
  rw [foot_eq_none.2 he, structOf_solid] at hd
  split at hd
  · rename_i hs
    rw [solid_nil_iff, List.all_eq_true] at hs
    exact hs
  · simp at hd

theorem what_empty {Γ : Types U} {os : List (Obj U)} (ho : ∀ o ∈ os, o.OK Γ) (he : ∀ e ∈ os.map (·.layout), e.empty = true) : os.flatMap Obj.what = [] := by
  rw [List.flatMap_eq_nil_iff]
  intro o h
  rw [Obj.what, (ho o h).empty (he _ (List.mem_map_of_mem h))]
  rfl

theorem tupleObj_ok {Γ : Types U} {os : List (Obj U)} (ho : ∀ o ∈ os, o.OK Γ) : (tupleObj os).OK Γ ∧ (tupleObj os).what = os.flatMap Obj.what := by
  have h1 : ∀ d ∈ os.map (·.layout), AnyType d := by
    intro d hd
    obtain ⟨o, h, rfl⟩ := List.mem_map.1 hd
    exact (ho o h).any
  have h2 : ∀ d ∈ os.map (·.layout), d.empty = false → Pow2 d.align := by
    intro d hd
    obtain ⟨o, h, rfl⟩ := List.mem_map.1 hd
    exact (ho o h).pow
  obtain ⟨t1, t2⟩ := tuple_spec _ h1
  obtain ⟨f1, f2⟩ := flat_spec (C102_tuple _ h1 h2).2 ho
  refine ⟨⟨t1.element, pow2_struct t2 h2, f1, fun he => ?_⟩, f2⟩
  have h3 := what_empty ho (struct_empty t2 he)
  rw [← f2, List.map_eq_nil_iff] at h3
  exact h3

theorem boundObj_ok {Γ : Types U} {f t : Obj U} (hf : f.OK Γ) (ht : t.OK Γ) : (boundObj f t).OK Γ ∧ (boundObj f t).what = f.what ++ t.what := by
  have ho : ∀ o ∈ [f, t], o.OK Γ := by
    intro o h
    simp only [List.mem_cons, List.not_mem_nil, or_false] at h
    rcases h with rfl | rfl <;> assumption
  have h2 : ∀ d ∈ [f.layout, t.layout], d.empty = false → Pow2 d.align := by
    intro d h
    simp only [List.mem_cons, List.not_mem_nil, or_false] at h
    rcases h with rfl | rfl
    · exact hf.pow
    · exact ht.pow
  obtain ⟨t1, t2⟩ := bound_spec hf.any ht.any
  have t2' : (bound true f.layout t.layout).foot = structOf ([f.layout, t.layout].map Layout.foot) := t2
  obtain ⟨f1, f2⟩ := flat_spec (os := [f, t]) (C102_bound f.layout t.layout hf.any ht.any hf.pow ht.pow).2 ho
  refine ⟨⟨t1.element, pow2_struct t2' h2, f1, fun he => ?_⟩, f2.trans (by simp)⟩
  have h3 := what_empty (os := [f, t]) ho (struct_empty t2' he)
  rw [← f2, List.map_eq_nil_iff] at h3
  exact h3

theorem lamObj_ok {Γ : Types U} : (lamObj : Obj U).OK Γ := ⟨.inl rfl, fun h => absurd (show lam.empty = false from h) (by decide), .nil, fun _ => rfl⟩

theorem leaf_ok {Γ : Types U} {p : Piece U} (h : AnyType (Γ.piece p)) (h2 : (Γ.piece p).empty = false → Pow2 (Γ.piece p).align) :
    (leaf Γ p).OK Γ ∧ (leaf Γ p).what = [p].filter Γ.stored := by
  cases he : (Γ.piece p).empty
  · have hl : leaf Γ p = ⟨Γ.piece p, [(0, p)]⟩ := by rw [leaf, he]; rfl
    rw [hl]
    refine ⟨⟨h, h2, ⟨List.pairwise_singleton _ _, by simp, by simp⟩, fun hc => ?_⟩, by simp [Obj.what, Types.stored, he]⟩
    dsimp only at hc
    rw [he] at hc; simp at hc
  · have hl : leaf Γ p = ⟨Γ.piece p, []⟩ := by rw [leaf, he]; rfl
    rw [hl]
    exact ⟨⟨h, h2, .nil, fun _ => rfl⟩, by simp [Obj.what, Types.stored, he]⟩

theorem lamOfObj_ok {Γ : Types U} {o : Obj U} (h : o.OK Γ) (he : o.layout.empty = false) : (lamOfObj o).OK Γ ∧ (lamOfObj o).what = o.what := by
  have hp : o.layout.Proper := h.any.resolve_left (by simp [he])
  obtain ⟨l1, l2⟩ := lamOf_one hp
  have hle : (lamOf [o.layout]).empty = false := rfl
  have hfoot := l2
  simp only [Layout.foot, hle, he, Bool.false_eq_true, if_false, Option.some.injEq, Prod.mk.injEq] at hfoot
  refine ⟨⟨l1.element, fun _ => by rw [show (lamOfObj o).layout = lamOf [o.layout] from rfl, hfoot.2]; exact h.pow he, ?_, fun hc => ?_⟩, by simp [lamOfObj, Obj.what]⟩
  · refine h.parts.shift (o := memberOffset .start o.layout) ?_ ?_
    · rw [memberOffset_start, Nat.zero_add]
      exact Nat.le_of_eq hfoot.1.symm
    · intro a ha
      rw [memberOffset_start, Nat.add_zero, ← hfoot.2]
      exact ha
  · rw [show (lamOfObj o).layout.empty = false from hle] at hc; simp at hc

theorem bindLamObj_ok {Γ : Types U} {os : List (Obj U)} (ho : ∀ o ∈ os, o.OK Γ) : (bindLamObj os).OK Γ ∧ (bindLamObj os).what = os.flatMap Obj.what := by
  obtain ⟨t1, t2⟩ := tupleObj_ok ho
  obtain ⟨b1, b2⟩ := boundObj_ok lamObj_ok t1
  exact ⟨b1, b2.trans (by rw [t2]; rfl)⟩

theorem bindLamObj_one {Γ : Types U} {o : Obj U} (ho : o.OK Γ) : (bindLamObj [o]).OK Γ ∧ (bindLamObj [o]).what = o.what := by
  obtain ⟨b1, b2⟩ := bindLamObj_ok (os := [o]) (by simpa using ho)
  exact ⟨b1, b2.trans (by simp)⟩

theorem lazyValueObj_ok {Γ : Types U} {o : Obj U} (ho : o.OK Γ) : (lazyValueObj o).OK Γ ∧ (lazyValueObj o).what = o.what := by
  obtain ⟨b1, b2⟩ := bindLamObj_ok (Γ := Γ) (os := [o, lamObj]) (by
    intro x hx
    simp only [List.mem_cons, List.not_mem_nil, or_false] at hx
    rcases hx with rfl | rfl
    · exact ho
    · exact lamObj_ok)
  exact ⟨b1, b2.trans (by simp [Obj.what, lamObj])⟩

theorem detailLazyObj_ok {Γ : Types U} {c f : Obj U} {ds : List (Obj U)} (hc : c.OK Γ) (he : c.layout.empty = false) (hf : f.OK Γ) (hd : ∀ d ∈ ds, d.OK Γ) :
    (detailLazyObj c f ds).OK Γ ∧ (detailLazyObj c f ds).what = c.what ++ (f.what ++ ds.flatMap Obj.what) := by
  obtain ⟨l1, l2⟩ := lamOfObj_ok hc he
  obtain ⟨t1, t2⟩ := tupleObj_ok (os := f :: ds) (by
    intro x hx
    rcases List.mem_cons.1 hx with rfl | hx
    · exact hf
    · exact hd x hx)
  obtain ⟨b1, b2⟩ := boundObj_ok l1 t1
  exact ⟨b1, b2.trans (by rw [l2, t2, List.flatMap_cons])⟩

theorem bindLamObj_layout (os : List (Obj U)) : (bindLamObj os).layout = bindLam (os.map (·.layout)) := rfl

theorem unwrapObj_ok {Γ : Types U} {f : Obj U} (hf : f.OK Γ) (he : f.layout.empty = false) : (unwrapObj f).OK Γ ∧ (unwrapObj f).what = f.what := by
  obtain ⟨b1, b2⟩ := bindLamObj_one hf
  obtain ⟨g1, g2⟩ := bindLam_one hf.any
  obtain ⟨u1, u2⟩ := unwrap_spec hf.any
  have hlay : (bindLamObj [f]).layout = bindLam [f.layout] := rfl
  have hbe : (bindLam [f.layout]).empty = false := by
    rw [Bool.eq_false_iff]
    intro hc
    rw [foot_eq_none.2 hc] at g2
    rw [foot_eq_none.1 g2.symm] at he; simp at he
  have hue : (unwrap f.layout).empty = false := by
    rw [Bool.eq_false_iff]
    intro hc
    rw [foot_eq_none.2 hc] at u2
    rw [foot_eq_none.1 u2.symm] at he; simp at he
  have hgood : ∀ d ∈ [bindLam [f.layout], lam], Good d := by
    intro d hd
    simp only [List.mem_cons, List.not_mem_nil, or_false] at hd
    rcases hd with rfl | rfl
    · exact g1
    · exact .inl lam_zero
  have hat : (overloadAt true [bindLam [f.layout], lam]).lookup 0 = some 0 := by
    rw [overloadAt_spec hgood (i := 0) rfl hbe, structAt_some (d := bindLam [f.layout]) rfl hbe]
    simp [solid, Lay.membersEnd, Lay.padding_zero 0 _ (Nat.dvd_zero _)]
  have hobj : unwrapObj f = ⟨unwrap f.layout, (bindLamObj [f]).parts.map fun r => (0 + r.1, r.2)⟩ := by
    simp only [unwrapObj, hlay, hat, baseOffset_start, Nat.zero_add]
    rfl
  have hsame : (unwrap f.layout).size = (bindLam [f.layout]).size ∧ (unwrap f.layout).align = (bindLam [f.layout]).align := by
    have := u2.trans g2.symm
    simp only [Layout.foot, hue, hbe, Bool.false_eq_true, if_false, Option.some.injEq, Prod.mk.injEq] at this
    exact this
  rw [hobj]
  refine ⟨⟨u1.element, fun _ => ?_, ?_, fun hc => ?_⟩, ?_⟩
  · dsimp only
    rw [hsame.2, ← hlay]
    exact b1.pow hbe
  · refine b1.parts.shift (o := 0) ?_ ?_
    · dsimp only
      rw [hsame.1, hlay, Nat.zero_add]
      exact Nat.le_refl _
    · intro a ha
      dsimp only at ha
      rw [hsame.2] at ha
      exact ha
  · dsimp only at hc
    rw [hue] at hc; simp at hc
  · rw [← b2]
    simp [Obj.what]

mutual
theorem depObj_layout (Γ : Types U) : ∀ t : LTree U, (depObj Γ t).layout = dep Γ t
  | .value v => by rw [depObj, dep]; rfl
  | .function f res => by rw [depObj, dep]; rfl
  | .lazy f res deps => by
    rw [depObj, dep, ← depObjs_layout Γ deps]; rfl
theorem depObjs_layout (Γ : Types U) : ∀ ts : List (LTree U), (depObjs Γ ts).map (·.layout) = depList Γ ts
  | [] => rfl
  | t :: ts => by rw [depObjs, depList, List.map_cons, depObj_layout Γ t, depObjs_layout Γ ts]
end

theorem cache_ok {Γ : Types U} (h : Γ.Plain) (h2 : Γ.Aligned) (res : Option U) :
    (leaf Γ (.cache res)).OK Γ ∧ (leaf Γ (.cache res)).layout.empty = false ∧ (leaf Γ (.cache res)).what = [.cache res].filter Γ.stored := by
  obtain ⟨c1, -⟩ := h.cache res
  have hp : Pow2 (Γ.cache res).align := by
    rcases res with _ | u
    · exact ⟨0, rfl⟩
    · exact h2.optional u
  obtain ⟨l1, l2⟩ := leaf_ok (Γ := Γ) (p := .cache res) (.inr c1) (fun _ => hp)
  exact ⟨l1, c1.1, l2⟩

theorem detail_empty (c f : Obj U) (ds : List (Obj U)) (Γ : Types U) (hok : (detailLazyObj c f ds).OK Γ) (hw : (detailLazyObj c f ds).what ≠ []) :
    (detailLazyObj c f ds).layout.empty = false := by
  rw [Bool.eq_false_iff]
  intro hc
  apply hw
  rw [Obj.what, hok.empty hc]
  rfl

mutual
theorem depObj_ok {Γ : Types U} (h : Γ.Plain) (h2 : Γ.Aligned) : ∀ t : LTree U, (depObj Γ t).OK Γ ∧ (depObj Γ t).what = (pieces t).filter Γ.stored
  | .value v => by
    obtain ⟨l1, l2⟩ := leaf_ok (Γ := Γ) (p := .value v) (h.layout v) (h2.layout v)
    obtain ⟨v1, v2⟩ := lazyValueObj_ok l1
    rw [depObj, pieces]
    exact ⟨v1, v2.trans l2⟩
  | .function f res => by
    obtain ⟨c1, c2, c3⟩ := cache_ok h h2 (some res)
    obtain ⟨l1, l2⟩ := leaf_ok (Γ := Γ) (p := .function f) (h.layout f) (h2.layout f)
    obtain ⟨b1, b2⟩ := bindLamObj_one l1
    obtain ⟨m1, m2⟩ := leaf_ok (Γ := Γ) (p := .dummy) (.inr (scalar_proper (by omega))) (fun _ => ⟨2, rfl⟩)
    obtain ⟨v1, v2⟩ := lazyValueObj_ok m1
    obtain ⟨d1, d2⟩ := detailLazyObj_ok (ds := [lazyValueObj (leaf Γ .dummy)]) c1 c2 b1 (by simpa using v1)
    rw [depObj, pieces]
    refine ⟨d1, d2.trans ?_⟩
    rw [c3, b2, l2, List.flatMap_cons, List.flatMap_nil, v2, m2, List.append_nil, ← List.filter_append, ← List.filter_append]
    rfl
  | .lazy f res deps => by
    obtain ⟨c1, c2, c3⟩ := cache_ok h h2 res
    obtain ⟨l1, l2⟩ := leaf_ok (Γ := Γ) (p := .function f) (h.layout f) (h2.layout f)
    obtain ⟨b1, b2⟩ := bindLamObj_one l1
    obtain ⟨i1, i2⟩ := depObjs_ok h h2 deps
    obtain ⟨d1, d2⟩ := detailLazyObj_ok c1 c2 b1 i1
    have hce : (Γ.piece (.cache res)).empty = false := c2
    obtain ⟨u1, u2⟩ := unwrapObj_ok d1 (detail_empty _ _ _ Γ d1 (by rw [d2, c3]; simp [Types.stored, hce]))
    obtain ⟨w1, w2⟩ := bindLamObj_one u1
    rw [depObj, pieces]
    refine ⟨w1, w2.trans (u2.trans (d2.trans ?_))⟩
    rw [c3, b2, l2, i2, ← List.filter_append, ← List.filter_append]
    rfl
theorem depObjs_ok {Γ : Types U} (h : Γ.Plain) (h2 : Γ.Aligned) : ∀ ts : List (LTree U),
    (∀ o ∈ depObjs Γ ts, o.OK Γ) ∧ (depObjs Γ ts).flatMap Obj.what = (piecesList ts).filter Γ.stored
  | [] => ⟨by simp [depObjs], rfl⟩
  | t :: ts => by
    obtain ⟨h3, h4⟩ := depObj_ok h h2 t
    obtain ⟨h5, h6⟩ := depObjs_ok h h2 ts
    rw [depObjs, piecesList, List.flatMap_cons, h4, h6, List.filter_append]
    refine ⟨?_, rfl⟩
    intro o ho
    rcases List.mem_cons.1 ho with rfl | ho
    · exact h3
    · exact h5 o ho
end

end Pigro.Ms
