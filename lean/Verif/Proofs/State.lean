import Verif.Spec.State
import Verif.Props.Offsets
/-!
# Lemmas about where the state of lazy functions is stored, with the Itanium C++ ABI
-/
namespace Pigro.Lay
open Ms (Piece pieces piecesList)
variable {U : Type} [DecidableEq U]

omit [DecidableEq U] in
theorem element_empty [DecidableEq T] (tag : Nat) (p : Part T) : (elementLayout tag p).empty = p.layout.empty := by
  unfold elementLayout
  split <;> simp_all [classLayout]

theorem tuple_empty [DecidableEq T] (ps : List (Part T)) : (tupleLayout false ps).empty = true → ∀ p ∈ ps, p.layout.empty = true := by
  intro h p hp
  simp only [tupleLayout, overloadLayout, Bool.false_eq_true, if_false, class_empty, List.all_cons, List.all_nil, Bool.and_true, List.all_eq_true] at h
  obtain ⟨i, hi⟩ := List.getElem?_of_mem hp
  have := h (elementLayout i p) (List.mem_map.2 ⟨(p, i), List.mk_mem_zipIdx_iff_getElem?.2 hi, rfl⟩)
  rwa [element_empty] at this

theorem bound_empty [DecidableEq T] (back : Bool) (f t : Part T) : (boundLayout false back f t).empty = (f.layout.empty && t.layout.empty) := by
  simp only [boundLayout, overloadLayout, Bool.false_eq_true, if_false, class_empty, List.all_cons, List.all_nil, Bool.and_true, element_empty]

/-- The state of an object is well placed. -/
structure Holder.OK (Γ : Types U) (o : Holder U) : Prop where
  pow : o.part.layout.empty = false → PowTwo o.part.layout.align
  parts : InTurn Γ o.part.layout.size o.part.layout.align o.parts
  empty : o.part.layout.empty = true → o.parts = []

omit [DecidableEq U] in
/-- What is stored. -/
def Holder.what (o : Holder U) : List (Piece U) := o.parts.map (·.2)

theorem InTurn.nil {Γ : Types U} {size align : Nat} : InTurn Γ size align [] := ⟨.nil, by simp, by simp⟩

theorem InTurn.shift {Γ : Types U} {size align size' align' o : Nat} {parts : List (Nat × Piece U)} (h : InTurn Γ size align parts) (hs : o + size ≤ size')
    (ha : ∀ a, align' ∣ a → align ∣ a + o) : InTurn Γ size' align' (parts.map fun r => (o + r.1, r.2)) := by
  refine ⟨?_, ?_, ?_⟩
  · rw [List.pairwise_map]
    exact h.apart.imp fun {x y} hxy => by dsimp only; omega
  · intro x hx
    obtain ⟨r, hr, rfl⟩ := List.mem_map.1 hx
    have := h.inside r hr
    dsimp only; omega
  · intro x hx a hd
    obtain ⟨r, hr, rfl⟩ := List.mem_map.1 hx
    have := h.aligned r hr (a + o) (ha a hd)
    rw [Nat.add_assoc] at this
    exact this

theorem InTurn.mono {Γ : Types U} {size size' align : Nat} {parts : List (Nat × Piece U)} (h : InTurn Γ size align parts) (hs : size ≤ size') : InTurn Γ size' align parts :=
  ⟨h.apart, fun x hx => Nat.le_trans (h.inside x hx) hs, h.aligned⟩

theorem flatAt_spec {Γ : Types U} {size align : Nat} {offs : Nat → Option Nat} {os : List (Holder U)} (h : Apart size align (os.map (·.part)) offs) (ho : ∀ o ∈ os, o.OK Γ) :
    InTurn Γ size align (flatAt offs os) ∧ (flatAt offs os).map (·.2) = os.flatMap Holder.what := by
  have hget : ∀ (i : Nat) (o : Holder U), os[i]? = some o → (os.map (·.part))[i]? = some o.part := by
    intro i o hi; rw [List.getElem?_map, hi]; rfl
  have hone : ∀ x ∈ os.zipIdx, InTurn Γ size align (x.1.at_ (offs x.2)) := by
    rintro ⟨o, i⟩ hx
    have hi := List.mk_mem_zipIdx_iff_getElem?.1 hx
    dsimp only
    rcases hat : offs i with _ | q
    · exact .nil
    · exact (ho o (List.mem_of_getElem? hi)).parts.shift (h.inside i _ q (hget i o hi) hat) (fun a ha => h.aligned i _ q a (hget i o hi) hat ha)
  refine ⟨⟨?_, ?_, ?_⟩, ?_⟩
  · rw [flatAt, List.pairwise_flatMap]
    refine ⟨fun x hx => (hone x hx).apart, ?_⟩
    rw [List.pairwise_iff_getElem]
    intro i j hi hj hij x hx y hy
    rw [List.length_zipIdx] at hi hj
    simp only [List.getElem_zipIdx, Nat.zero_add] at hx hy
    rcases hi' : offs i with _ | p
    · rw [hi'] at hx; simp [Holder.at_] at hx
    · rcases hj' : offs j with _ | q
      · rw [hj'] at hy; simp [Holder.at_] at hy
      · rw [hi'] at hx
        rw [hj'] at hy
        obtain ⟨r, hr, rfl⟩ := List.mem_map.1 hx
        obtain ⟨s, hs, rfl⟩ := List.mem_map.1 hy
        have h1 := (ho os[i] (List.getElem_mem hi)).parts.inside r hr
        have h2 := h.apart i j _ _ p q hij (hget i os[i] (List.getElem?_eq_getElem hi)) (hget j os[j] (List.getElem?_eq_getElem hj)) hi' hj'
        dsimp only; omega
  · intro x hx
    obtain ⟨y, hy, hxy⟩ := List.mem_flatMap.1 hx
    exact (hone y hy).inside x hxy
  · intro x hx
    obtain ⟨y, hy, hxy⟩ := List.mem_flatMap.1 hx
    exact (hone y hy).aligned x hxy
  · have hmap : ∀ x ∈ os.zipIdx, (x.1.at_ (offs x.2)).map (·.2) = Holder.what x.1 := by
      rintro ⟨o, i⟩ hx
      have hi := List.mk_mem_zipIdx_iff_getElem?.1 hx
      dsimp only
      have hok := ho o (List.mem_of_getElem? hi)
      rcases hat : offs i with _ | q
      · have he : o.part.layout.empty = true := by
          cases he : o.part.layout.empty
          · obtain ⟨q, hq⟩ := h.all i _ (hget i o hi) he
            rw [hat] at hq; simp at hq
          · rfl
        simp [Holder.what, Holder.at_, hok.empty he]
      · simp [Holder.what, Holder.at_]
    rw [flatAt, List.map_flatMap]
    have : ∀ l : List (Holder U × Nat), (∀ x ∈ l, x ∈ os.zipIdx) → (l.flatMap fun x => (x.1.at_ (offs x.2)).map (·.2)) = (l.map (·.1)).flatMap Holder.what := by
      intro l
      induction l with
      | nil => intro _; rfl
      | cons x l ih =>
        intro hl
        rw [List.flatMap_cons, List.map_cons, List.flatMap_cons, hmap x (hl x (by simp)), ih fun y hy => hl y (by simp [hy])]
    rw [this _ fun _ hx => hx]
    simp

theorem whatH_empty {Γ : Types U} {os : List (Holder U)} (ho : ∀ o ∈ os, o.OK Γ) (he : ∀ o ∈ os, o.part.layout.empty = true) : os.flatMap Holder.what = [] := by
  rw [List.flatMap_eq_nil_iff]
  intro o h
  rw [Holder.what, (ho o h).empty (he _ h)]
  rfl

theorem tuple_pow (ps : List (Part (LTy U))) (h : ∀ p ∈ ps, p.layout.empty = false → PowTwo p.layout.align) : PowTwo (tupleLayout false ps).align := by
  have hb : ∀ d ∈ ps.zipIdx.map (fun p => elementLayout p.2 p.1), PowTwo d.align := by
    intro d hd
    obtain ⟨⟨p, k⟩, hp, rfl⟩ := List.mem_map.1 hd
    exact element_align k p (h p (List.mem_of_getElem? (List.mk_mem_zipIdx_iff_getElem?.1 hp)))
  exact (class_base _ _ (class_base _ _ (class_bases _ _ hb).1).1).1

theorem tupleH_ok {Γ : Types U} {os : List (Holder U)} (ho : ∀ o ∈ os, o.OK Γ) : (tupleH os).OK Γ ∧ (tupleH os).what = os.flatMap Holder.what := by
  have h2 : ∀ p ∈ os.map (·.part), p.layout.empty = false → PowTwo p.layout.align := by
    intro d hd
    obtain ⟨o, h, rfl⟩ := List.mem_map.1 hd
    exact (ho o h).pow
  obtain ⟨f1, f2⟩ := flatAt_spec (C103_tuple _ h2) ho
  refine ⟨⟨fun _ => tuple_pow _ h2, f1, fun he => ?_⟩, f2⟩
  have h3 := whatH_empty ho fun o h => tuple_empty _ he _ (List.mem_map_of_mem h)
  rw [← f2, List.map_eq_nil_iff] at h3
  exact h3

/-- Also without the tail padding. -/
theorem boundH_ok (back : Bool) {Γ : Types U} {f t : Holder U} (hf : f.OK Γ) (ht : t.OK Γ) : (boundH back f t).OK Γ ∧ (boundH back f t).what = f.what ++ t.what ∧
    InTurn Γ (boundH back f t).part.layout.nvsize (boundH back f t).part.layout.align (boundH back f t).parts := by
  have ho : ∀ o ∈ [f, t], o.OK Γ := by
    intro o h
    simp only [List.mem_cons, List.not_mem_nil, or_false] at h
    rcases h with rfl | rfl <;> assumption
  obtain ⟨b1, b2, b3⟩ := bound_apart back f.part t.part hf.pow ht.pow
  obtain ⟨f1, f2⟩ := flatAt_spec (os := [f, t]) b1 ho
  refine ⟨⟨fun _ => b2, f1.mono b3, fun he => ?_⟩, f2.trans (by simp), f1⟩
  have he' : (f.part.layout.empty && t.part.layout.empty) = true := by rw [← bound_empty back]; exact he
  rw [Bool.and_eq_true] at he'
  have h3 := whatH_empty (os := [f, t]) ho (by
    intro o h
    simp only [List.mem_cons, List.not_mem_nil, or_false] at h
    rcases h with rfl | rfl
    · exact he'.1
    · exact he'.2)
  rw [← f2, List.map_eq_nil_iff] at h3
  exact h3

theorem emptyH_ok {Γ : Types U} {p : Part (LTy U)} (h : p.layout.empty = true) : (emptyH p).OK Γ :=
  ⟨fun hc => by rw [show (emptyH p).part = p from rfl, h] at hc; simp at hc, .nil, fun _ => rfl⟩

theorem leafH_ok {Γ : Types U} (ty : LTy U) {p : Piece U} (h2 : (Γ.piece p).empty = false → PowTwo (Γ.piece p).align) :
    (leafH Γ ty p).OK Γ ∧ (leafH Γ ty p).what = [p].filter Γ.stored := by
  cases he : (Γ.piece p).empty
  · have hl : leafH Γ ty p = ⟨⟨ty, Γ.piece p⟩, [(0, p)]⟩ := by rw [leafH, he]; rfl
    rw [hl]
    refine ⟨⟨h2, ⟨List.pairwise_singleton _ _, by simp, by simp⟩, fun hc => ?_⟩, by simp [Holder.what, Types.stored, he]⟩
    dsimp only at hc
    rw [he] at hc; simp at hc
  · have hl : leafH Γ ty p = ⟨⟨ty, Γ.piece p⟩, []⟩ := by rw [leafH, he]; rfl
    rw [hl]
    exact ⟨⟨h2, .nil, fun _ => rfl⟩, by simp [Holder.what, Types.stored, he]⟩

theorem Types.Powers.cache {Γ : Types U} (h : Γ.Powers) (res : Option U) : PowTwo (Γ.cache res).align ∧ (Γ.cache res).empty = false := by
  rcases res with _ | u
  · exact ⟨⟨0, rfl⟩, rfl⟩
  · exact h.optional u

theorem coreH_ok {Γ : Types U} (h : Γ.Powers) (ty : LTy U) (res : Option U) : (coreH Γ ty res).OK Γ ∧ (coreH Γ ty res).what = [.cache res].filter Γ.stored ∧
    (coreH Γ ty res).part.layout.empty = false := by
  obtain ⟨c1, c2⟩ := h.cache res
  obtain ⟨m1, m2, m3, m4, m5, m6⟩ := class_member (Name.user ty) (Γ.cache res) c1
  have hp : Γ.piece (.cache res) = Γ.cache res := rfl
  refine ⟨⟨fun _ => m1, ⟨List.pairwise_singleton _ _, ?_, ?_⟩, fun hc => ?_⟩, ?_, m6⟩
  · intro x hx
    rw [List.mem_singleton.1 hx]
    exact Nat.le_trans m5 m2
  · intro x hx a ha
    rw [List.mem_singleton.1 hx]
    exact Nat.dvd_add (Nat.dvd_trans m3 ha) m4
  · rw [show (coreH Γ ty res).part.layout.empty = false from m6] at hc; simp at hc
  · simp [coreH, Holder.what, Types.stored, hp, c2]

theorem lam_empty (k : LamKind) (ts : List (LTy U)) : (lamPart k ts).layout.empty = true := rfl

theorem bindLamH_ok (back : Bool) (k : LamKind) {Γ : Types U} {os : List (Holder U)} (ho : ∀ o ∈ os, o.OK Γ) :
    (bindLamH back k os).OK Γ ∧ (bindLamH back k os).what = os.flatMap Holder.what ∧
    InTurn Γ (bindLamH back k os).part.layout.nvsize (bindLamH back k os).part.layout.align (bindLamH back k os).parts := by
  obtain ⟨t1, t2⟩ := tupleH_ok ho
  obtain ⟨b1, b2, b3⟩ := boundH_ok back (emptyH_ok (Γ := Γ) (lam_empty k (os.map (·.part.ty)))) t1
  exact ⟨b1, b2.trans (by rw [t2]; rfl), b3⟩

theorem bindLamH_one (back : Bool) (k : LamKind) {Γ : Types U} {o : Holder U} (ho : o.OK Γ) :
    (bindLamH back k [o]).OK Γ ∧ (bindLamH back k [o]).what = o.what ∧
    InTurn Γ (bindLamH back k [o]).part.layout.nvsize (bindLamH back k [o]).part.layout.align (bindLamH back k [o]).parts := by
  obtain ⟨b1, b2, b3⟩ := bindLamH_ok back k (os := [o]) (by simpa using ho)
  exact ⟨b1, b2.trans (by simp), b3⟩

theorem lazyValueH_ok {Γ : Types U} {o : Holder U} (b : Bool) (ho : o.OK Γ) : (lazyValueH o b).OK Γ ∧ (lazyValueH o b).what = o.what := by
  obtain ⟨b1, b2, -⟩ := bindLamH_ok true .value (Γ := Γ) (os := [o, emptyH (flagPart b)]) (by
    intro x hx
    simp only [List.mem_cons, List.not_mem_nil, or_false] at hx
    rcases hx with rfl | rfl
    · exact ho
    · exact emptyH_ok rfl)
  exact ⟨b1, b2.trans (by simp [Holder.what, emptyH])⟩

theorem detailLazyH_ok {Γ : Types U} (h : Γ.Powers) (res : Option U) {f : Holder U} {ds : List (Holder U)} (hf : f.OK Γ) (hd : ∀ d ∈ ds, d.OK Γ) :
    (detailLazyH Γ res f ds).OK Γ ∧ (detailLazyH Γ res f ds).what = [.cache res].filter Γ.stored ++ (f.what ++ ds.flatMap Holder.what) ∧
    (detailLazyH Γ res f ds).part.layout.empty = false := by
  obtain ⟨l1, l2, l3⟩ := coreH_ok h (.lam .core (pack ((f :: ds).map (·.part.ty)))) res
  obtain ⟨t1, t2⟩ := tupleH_ok (os := f :: ds) (by
    intro x hx
    rcases List.mem_cons.1 hx with rfl | hx
    · exact hf
    · exact hd x hx)
  obtain ⟨b1, b2, -⟩ := boundH_ok true l1 t1
  refine ⟨b1, b2.trans (by rw [l2, t2, List.flatMap_cons]), ?_⟩
  refine (bound_empty true _ _).trans ?_
  rw [l3]; rfl

theorem bindLamH_empty (back : Bool) (k : LamKind) {o : Holder U} (h : o.part.layout.empty = false) : (bindLamH back k [o]).part.layout.empty = false := by
  have : (bindLamH back k [o]).part.layout.empty = ((lamPart k [o.part.ty]).layout.empty && (tupleLayout false [o.part]).empty) := bound_empty back _ _
  rw [this, Bool.and_eq_false_iff]
  right
  rw [Bool.eq_false_iff]
  intro hc
  have := tuple_empty _ hc o.part (by simp)
  rw [h] at this; simp at this

theorem unwrapH_ok {Γ : Types U} {f : Holder U} (hf : f.OK Γ) (he : f.part.layout.empty = false) : (unwrapH f).OK Γ ∧ (unwrapH f).what = f.what := by
  obtain ⟨b1, b2, b3⟩ := bindLamH_one true .unwrapCall hf
  have hbe := bindLamH_empty true .unwrapCall he
  have hb : unwrapPart false f.part = ⟨.unwrap f.part.ty, classLayout (.user (.unwrap f.part.ty))
      [classLayout (.overload none [.unwrapOverload f.part.ty]) [(bindLamH true .unwrapCall [f]).part.layout, (lamPart .unwrapGet [f.part.ty]).layout] []] []⟩ := rfl
  have hu : unwrapH f = ⟨unwrapPart false f.part, (bindLamH true .unwrapCall [f]).parts.map fun r =>
      (baseOffset .start (classLayout (.overload none [.unwrapOverload f.part.ty]) [(bindLamH true .unwrapCall [f]).part.layout, (lamPart .unwrapGet [f.part.ty]).layout] []) +
        (baseOffset .start (bindLamH true .unwrapCall [f]).part.layout + r.1), r.2)⟩ := rfl
  rw [hu, hb]
  have hL : PowTwo (lamPart .unwrapGet [f.part.ty]).layout.align := ⟨0, rfl⟩
  generalize (lamPart .unwrapGet [f.part.ty]).layout = L at *
  generalize bindLamH true .unwrapCall [f] = B at *
  obtain ⟨c1, c2, c3⟩ := class_bases (Name.overload none [LTy.unwrapOverload f.part.ty]) [B.part.layout, L] (by
    intro d hd
    simp only [List.mem_cons, List.not_mem_nil, or_false] at hd
    rcases hd with rfl | rfl
    · exact b1.pow hbe
    · exact hL)
  obtain ⟨d1, o, d2, d3, d4⟩ := c3 0 B.part.layout rfl
  simp only [offsets, List.getElem?_cons_zero, Option.some.injEq] at d2
  subst d2
  have hoe : (classLayout (Name.overload none [LTy.unwrapOverload f.part.ty]) [B.part.layout, L] []).empty = false := by
    rw [class_empty]; simp [hbe]
  have d5 := d4 hbe
  generalize classLayout (Name.overload none [LTy.unwrapOverload f.part.ty]) [B.part.layout, L] [] = O at *
  obtain ⟨e1, e2, e3, e4, e5⟩ := class_base (Name.user (LTy.unwrap f.part.ty)) O c1
  have e6 := e5 hoe
  refine ⟨⟨fun _ => e1, ?_, fun hc => ?_⟩, ?_⟩
  · have := b3.shift (size' := (classLayout (Name.user (LTy.unwrap f.part.ty)) [O] []).size) (align' := (classLayout (Name.user (LTy.unwrap f.part.ty)) [O] []).align)
      (o := baseOffset .start O + baseOffset .start B.part.layout) (by omega) (fun a ha => Nat.dvd_add (Nat.dvd_trans d1 (Nat.dvd_trans e3 ha))
        (Nat.dvd_add (Nat.dvd_trans d1 e4) d3))
    simp only [Nat.add_assoc] at this
    exact this
  · dsimp only at hc
    rw [class_empty] at hc
    simp [hoe] at hc
  · rw [← b2]
    simp [Holder.what]

mutual
theorem depH_part (Γ : Types U) : ∀ t : LTree U, (depH Γ t).part = depPart Γ false t
  | .value v => by rw [depH, depPart]; rfl
  | .function f res => by rw [depH, depPart]; rfl
  | .lazy f res deps => by
    rw [depH, depPart, ← depHs_part Γ deps]
    simp only [bindLamH, boundH, unwrapH, detailLazyH, tupleH, emptyH, coreH, unregularizedPart, regularizedPart, bindLam, boundPart, tuplePart, unwrapPart, detailLazyPart,
      List.map_cons, List.map_nil, List.map_map]
    rfl
theorem depHs_part (Γ : Types U) : ∀ ts : List (LTree U), (depHs Γ ts).map (·.part) = depParts Γ false ts
  | [] => rfl
  | t :: ts => by rw [depHs, depParts, List.map_cons, depH_part Γ t, depHs_part Γ ts]
end

mutual
theorem depH_ok {Γ : Types U} (h : Γ.Powers) : ∀ t : LTree U, (depH Γ t).OK Γ ∧ (depH Γ t).what = (pieces t).filter Γ.stored
  | .value v => by
    obtain ⟨l1, l2⟩ := leafH_ok (Γ := Γ) (.user v) (p := .value v) (h.layout v)
    obtain ⟨v1, v2⟩ := lazyValueH_ok false l1
    rw [depH, pieces]
    exact ⟨v1, v2.trans l2⟩
  | .function f res => by
    obtain ⟨l1, l2⟩ := leafH_ok (Γ := Γ) (.user f) (p := .function f) (h.layout f)
    obtain ⟨b1, b2, -⟩ := bindLamH_one true .poll l1
    obtain ⟨m1, m2⟩ := leafH_ok (Γ := Γ) .int (p := .dummy) (fun _ => ⟨2, rfl⟩)
    obtain ⟨v1, v2⟩ := lazyValueH_ok true m1
    obtain ⟨d1, d2, -⟩ := detailLazyH_ok h (some res) (ds := [lazyValueH (leafH Γ .int .dummy) true]) b1 (by simpa using v1)
    rw [depH, pieces]
    refine ⟨d1, d2.trans ?_⟩
    rw [b2, l2, List.flatMap_cons, List.flatMap_nil, v2, m2, List.append_nil, ← List.filter_append, ← List.filter_append]
    rfl
  | .lazy f res deps => by
    obtain ⟨l1, l2⟩ := leafH_ok (Γ := Γ) (.user f) (p := .function f) (h.layout f)
    obtain ⟨b1, b2, -⟩ := bindLamH_one false .regularize l1
    obtain ⟨i1, i2⟩ := depHs_ok h deps
    obtain ⟨d1, d2, d3⟩ := detailLazyH_ok h res b1 i1
    obtain ⟨u1, u2⟩ := unwrapH_ok d1 d3
    obtain ⟨w1, w2, -⟩ := bindLamH_one false .unregularize u1
    rw [depH, pieces]
    refine ⟨w1, w2.trans (u2.trans (d2.trans ?_))⟩
    rw [b2, l2, i2, ← List.filter_append, ← List.filter_append]
    rfl
theorem depHs_ok {Γ : Types U} (h : Γ.Powers) : ∀ ts : List (LTree U),
    (∀ o ∈ depHs Γ ts, o.OK Γ) ∧ (depHs Γ ts).flatMap Holder.what = (piecesList ts).filter Γ.stored
  | [] => ⟨by simp [depHs], rfl⟩
  | t :: ts => by
    obtain ⟨h3, h4⟩ := depH_ok h t
    obtain ⟨h5, h6⟩ := depHs_ok h ts
    rw [depHs, piecesList, List.flatMap_cons, h4, h6, List.filter_append]
    refine ⟨?_, rfl⟩
    intro o ho
    rcases List.mem_cons.1 ho with rfl | ho
    · exact h3
    · exact h5 o ho
end

end Pigro.Lay
