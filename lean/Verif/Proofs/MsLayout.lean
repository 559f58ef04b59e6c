import Verif.Model.MsLayout
import Verif.Spec.MsLayout
import Verif.Proofs.LazyLayout
/-!
# Lemmas about layout with the Microsoft compiler
-/
namespace Pigro.Ms
open Lay (roundUp LTree Foot structOf membersEnd strictest structSize padding)
variable {U : Type}

theorem partition_spec (fs : List Layout) :
    TL.partitionT (·.empty) fs = fs.filter (·.empty) ++ fs.filter (! ·.empty) := by
  have h := TL.partition_eq fs (TL.predicate (·.empty))
  rw [TL.partitionT, h, TL.filterIf_eq, TL.filterIf_eq]
  rfl

/-- An empty class that takes no space as a base class. -/
structure Zero (d : Layout) : Prop where
  empty : d.empty = true
  size : d.size = 1
  nv : d.nv = 0
  align : d.align = 1

/-- Not an empty class, without anything to be cut off as a base class. -/
structure Solid (d : Layout) : Prop where
  proper : d.Proper
  nv : d.nv = d.size

/-- Either. -/
def Good (d : Layout) : Prop := Zero d ∨ Solid d

/-- Sizes and alignments of the non-empty ones. -/
def solid (ds : List Layout) : List (Nat × Nat) := (ds.map Layout.foot).filterMap id

theorem solid_cons (d : Layout) (ds : List Layout) : solid (d :: ds) = (if d.empty then [] else [(d.size, d.align)]) ++ solid ds := by
  unfold solid
  cases h : d.empty <;> simp [Layout.foot, h]

theorem solid_nil_iff (ds : List Layout) : solid ds = [] ↔ ds.all (·.empty) = true := by
  induction ds with
  | nil => simp [solid]
  | cons d ds ih =>
    rw [solid_cons]
    cases h : d.empty <;> simp [h, ih]

theorem solid_partition (fs : List Layout) : solid (TL.partitionT (·.empty) fs) = solid fs := by
  rw [partition_spec]
  have h1 : ∀ fs : List Layout, solid (fs.filter (·.empty)) = [] := by
    intro fs; rw [solid_nil_iff]; simp
  have h2 : ∀ fs : List Layout, solid (fs.filter (! ·.empty)) = solid fs := by
    intro fs
    induction fs with
    | nil => rfl
    | cons d ds ih =>
      rw [solid_cons, List.filter_cons]
      cases h : d.empty
      · simp [solid_cons, h, ih]
      · simp [ih]
  have : ∀ xs ys : List Layout, solid (xs ++ ys) = solid xs ++ solid ys := by
    intro xs ys; simp [solid]
  rw [this, h1, h2, List.nil_append]

theorem partition_mem (fs : List Layout) (d : Layout) : d ∈ TL.partitionT (·.empty) fs ↔ d ∈ fs := by
  rw [partition_spec]
  simp only [List.mem_append, List.mem_filter, Bool.not_eq_true']
  cases d.empty <;> simp

theorem partition_all (fs : List Layout) : (TL.partitionT (·.empty) fs).all (·.empty) = fs.all (·.empty) := by
  rw [Bool.eq_iff_iff, List.all_eq_true, List.all_eq_true]
  simp only [partition_mem]

/-- Base classes of a class declared with `__declspec(empty_bases)`. -/
theorem bases_ebo : ∀ (ds : List Layout) (p : Progress), (∀ d ∈ ds, Good d) →
    (ds.foldl (placeBase true) p).size = membersEnd (solid ds) p.size ∧
    (ds.foldl (placeBase true) p).align = (solid ds).foldl (fun a m => max a m.2) (max p.align 1) ∨ ds = [] := by
  intro ds
  induction ds with
  | nil => intro p _; exact .inr rfl
  | cons d ds ih =>
    intro p h
    left
    have hd : (placeBase true p d).size = membersEnd (solid [d]) p.size ∧
        max (placeBase true p d).align 1 = (solid [d]).foldl (fun a m => max a m.2) (max p.align 1) ∧ 1 ≤ (placeBase true p d).align := by
      rcases h d (by simp) with hz | hs
      · simp [placeBase, hz.empty, hz.nv, hz.align, solid, Layout.foot, membersEnd]
        omega
      · obtain ⟨h1, h2, h3, h4⟩ := hs.proper
        simp only [placeBase, h1, Bool.and_false, Bool.false_and, Bool.false_eq_true, if_false, baseOffset, if_true, solid, List.map_cons, List.map_nil, Layout.foot,
          List.filterMap_cons, id, List.filterMap_nil, membersEnd, List.foldl_cons, List.foldl_nil, hs.nv]
        rw [Lay.roundUp_eq _ _ h3]
        omega
    have happ : solid (d :: ds) = solid [d] ++ solid ds := by
      rw [solid_cons, solid_cons d []]; simp [solid]
    rw [List.foldl_cons, happ, Lay.membersEnd_append, List.foldl_append, ← hd.1, ← hd.2.1]
    rcases ih (placeBase true p d) (fun e he => h e (by simp [he])) with h1 | rfl
    · exact h1
    · refine ⟨rfl, ?_⟩
      show (placeBase true p d).align = max (placeBase true p d).align 1
      omega

theorem membersEnd_pos : ∀ (ms : List (Nat × Nat)) (off : Nat), (∃ m ∈ ms, 0 < m.1) → 0 < membersEnd ms off := by
  intro ms
  induction ms with
  | nil => intro off h; simp at h
  | cons m ms ih =>
    intro off h
    obtain ⟨s, a⟩ := m
    rw [membersEnd]
    by_cases hs : 0 < s
    · exact Nat.lt_of_lt_of_le (by omega) (Lay.le_membersEnd ms _)
    · obtain ⟨m, hm, h0⟩ := h
      rcases List.mem_cons.1 hm with rfl | hm
      · exact absurd h0 hs
      · exact ih _ ⟨m, hm, h0⟩

/-- From size and alignment of what has been placed to the class. -/
theorem good_of {ebo : Bool} {bases members : List Layout} {ms : List (Nat × Nat)}
    (hsize : (members.foldl placeMember (bases.foldl (placeBase ebo) .start)).size = membersEnd ms 0)
    (halign : (members.foldl placeMember (bases.foldl (placeBase ebo) .start)).align = strictest ms)
    (hempty : (members.isEmpty && bases.all (·.empty)) = true ↔ ms = []) (hpos : ∀ m ∈ ms, 0 < m.1) :
    Good (classLayout ebo bases members) ∧
    (classLayout ebo bases members).foot = if ms = [] then none else some (structSize ms, strictest ms) := by
  have ha : 0 < strictest ms := Lay.strictest_pos ms 1 (by omega)
  by_cases h : ms = []
  · subst h
    have he := hempty.2 rfl
    have h0 : roundUp (membersEnd [] 0) (strictest []) = 0 := rfl
    have h1 : strictest [] = 1 := rfl
    refine ⟨.inl ⟨?_, ?_, ?_, ?_⟩, ?_⟩
    · exact he
    · simp only [classLayout, hsize, halign]
      rw [h0]; rfl
    · simp only [classLayout, hsize, halign, h0]
    · simp only [classLayout, halign, h1]
    · have : (classLayout ebo bases members).empty = true := he
      simp [Layout.foot, this]
  · have he : (classLayout ebo bases members).empty = false := by
      rw [Bool.eq_false_iff]
      exact fun hc => h (hempty.1 hc)
    have hm : 0 < membersEnd ms 0 := by
      rcases ms with _ | ⟨m, ms⟩
      · exact absurd rfl h
      · exact membersEnd_pos _ _ ⟨m, by simp, hpos m (by simp)⟩
    have hr := Lay.le_roundUp (membersEnd ms 0) (strictest ms) ha
    have hnv : (classLayout ebo bases members).nv = roundUp (membersEnd ms 0) (strictest ms) := by
      simp only [classLayout, hsize, halign]
    have hsz : (classLayout ebo bases members).size = roundUp (membersEnd ms 0) (strictest ms) := by
      simp only [classLayout, hsize, halign]
      rw [if_neg (by omega)]
    have hal : (classLayout ebo bases members).align = strictest ms := by simp only [classLayout, halign]
    refine ⟨.inr ⟨⟨he, by omega, by omega, ?_⟩, by rw [hnv, hsz]⟩, ?_⟩
    · rw [hsz, hal]; exact Nat.dvd_mul_left _ _
    · rw [Layout.foot, he, if_neg (by simp), if_neg h, hsz, hal, structSize, if_neg h, Lay.roundUp_eq _ _ ha]

theorem Good.foot_pos {d : Layout} (h : Good d) : ∀ m, d.foot = some m → 0 < m.1 ∧ 0 < m.2 ∧ m.2 ∣ m.1 := by
  intro m hm
  rcases h with h | h
  · simp [Layout.foot, h.empty] at hm
  · obtain ⟨h1, h2, h3, h4⟩ := h.proper
    simp [Layout.foot, h1] at hm
    subst hm
    exact ⟨h2, h3, h4⟩

theorem solid_pos {ds : List Layout} (h : ∀ d ∈ ds, Good d) : ∀ m ∈ solid ds, 0 < m.1 := by
  intro m hm
  simp only [solid, List.mem_filterMap, List.mem_map, id, exists_eq_right] at hm
  obtain ⟨d, hd, hm⟩ := hm
  exact ((h d hd).foot_pos m hm).1

theorem structOf_solid (ds : List Layout) :
    structOf (ds.map Layout.foot) = if solid ds = [] then none else some (structSize (solid ds), strictest (solid ds)) := rfl

/-- A class with `__declspec(empty_bases)` and no members. -/
theorem class_ebo (ds : List Layout) (h : ∀ d ∈ ds, Good d) :
    Good (classLayout true ds []) ∧ (classLayout true ds []).foot = structOf (ds.map Layout.foot) := by
  rw [structOf_solid]
  rcases bases_ebo ds .start h with ⟨h1, h2⟩ | rfl
  · exact good_of h1 h2 (by simp [solid_nil_iff]) (solid_pos h)
  · exact good_of (ms := solid []) rfl rfl (by simp [solid]) (by simp [solid])

theorem Good.one {d : Layout} (h : Good d) : structOf [d.foot] = d.foot := by
  rcases hf : d.foot with _ | m
  · rfl
  · obtain ⟨h1, h2, h3⟩ := h.foot_pos m hf
    simp only [structOf, List.filterMap_cons, id, List.filterMap_nil, if_false, structSize, strictest,
      membersEnd, List.foldl_cons, List.foldl_nil, Nat.zero_add, List.cons_ne_self]
    rw [Lay.padding_zero 0 _ (Nat.dvd_zero _), Nat.zero_add, Nat.max_eq_right (by omega : 1 ≤ m.2), Lay.padding_zero _ _ h3]
    rfl

/-- A class with one base class is what the base class is. -/
theorem class_one (ebo : Bool) {d : Layout} (h : Good d) : Good (classLayout ebo [d] []) ∧ (classLayout ebo [d] []).foot = d.foot := by
  rcases ebo with _ | _
  · have hb : placeBase false .start d = placeBase true .start d ∨ (placeBase false .start d).size = (placeBase true .start d).size ∧
        (placeBase false .start d).align = (placeBase true .start d).align := by
      right
      rcases h with h | h
      · simp [placeBase, baseOffset, Progress.start, h.empty, h.nv, h.align, roundUp]
      · obtain ⟨h1, -⟩ := h.proper
        simp [placeBase, baseOffset, Progress.start, h1]
    have hb' : (placeBase false .start d).size = (placeBase true .start d).size ∧
        (placeBase false .start d).align = (placeBase true .start d).align := by
      rcases hb with hb | hb
      · rw [hb]; simp
      · exact hb
    have hd : ∀ e ∈ [d], Good e := by simpa using h
    have h1 : structOf [d.foot] = if solid [d] = [] then none else some (structSize (solid [d]), strictest (solid [d])) := rfl
    rw [← h.one, h1]
    rcases bases_ebo [d] .start hd with ⟨h2, h3⟩ | h2
    · refine good_of (ms := solid [d]) ?_ ?_ (by simp [solid_nil_iff]) (solid_pos hd)
      · simp only [List.foldl_cons, List.foldl_nil] at h2 ⊢
        rw [hb'.1, h2]; rfl
      · simp only [List.foldl_cons, List.foldl_nil] at h3 ⊢
        rw [hb'.2, h3]; rfl
    · simp at h2
  · have h1 := class_ebo [d] (by simpa using h)
    rw [← h.one]
    exact h1

/-- A class without bases. -/
theorem class_members (ms : List Layout) (h : ∀ d ∈ ms, d.Proper) :
    Good (classLayout false [] ms) ∧ (classLayout false [] ms).foot = structOf (ms.map Layout.foot) := by
  have hgen : ∀ (ms : List Layout) (p : Progress), (∀ d ∈ ms, d.Proper) → 0 < p.align →
      (ms.foldl placeMember p).size = membersEnd (solid ms) p.size ∧
      (ms.foldl placeMember p).align = (solid ms).foldl (fun a m => max a m.2) p.align := by
    intro ms
    induction ms with
    | nil => intro p _ _; simp [solid, membersEnd]
    | cons d ds ih =>
      intro p h hp
      obtain ⟨h1, h2, h3, h4⟩ := h d (by simp)
      obtain ⟨i1, i2⟩ := ih (placeMember p d) (fun e he => h e (by simp [he])) (by simp [placeMember]; omega)
      rw [List.foldl_cons, i1, i2, solid_cons, h1, if_neg (by simp)]
      simp only [placeMember, memberOffset, List.cons_append, List.nil_append, membersEnd, List.foldl_cons]
      rw [Lay.roundUp_eq _ _ h3]
      exact ⟨rfl, trivial⟩
  obtain ⟨h1, h2⟩ := hgen ms .start h (by simp [Progress.start])
  rw [structOf_solid]
  refine good_of h1 h2 ?_ ?_
  · rw [solid_nil_iff]
    rcases ms with _ | ⟨m, ms⟩
    · simp
    · simp [(h m (by simp)).1]
  · intro m hm
    simp only [solid, List.mem_filterMap, List.mem_map, id, exists_eq_right] at hm
    obtain ⟨d, hd, hm⟩ := hm
    obtain ⟨h1, h2, -⟩ := h d hd
    simp [Layout.foot, h1] at hm
    subst hm
    exact h2

theorem lam_zero : Zero lam := ⟨rfl, rfl, rfl, rfl⟩

theorem Layout.Proper.one {d : Layout} (h : d.Proper) : structOf [d.foot] = d.foot :=
  Good.one (d := ⟨d.size, d.size, d.align, d.empty, false, false⟩) (.inr ⟨h, rfl⟩)

theorem Good.proper {d : Layout} (h : Good d) (hf : d.empty = false) : d.Proper := by
  rcases h with h | h
  · rw [h.empty] at hf; simp at hf
  · exact h.proper

theorem foot_eq_none {d : Layout} : d.foot = none ↔ d.empty = true := by
  cases h : d.empty <;> simp [Layout.foot, h]

/-- A lambda with one capture. -/
theorem lamOf_one {d : Layout} (h : d.Proper) : Good (lamOf [d]) ∧ (lamOf [d]).foot = d.foot := by
  have h1 := class_members [d] (by simpa using h)
  rw [lamOf]
  refine ⟨h1.1, ?_⟩
  rw [h1.2, ← h.one]
  rfl

/-- `std::tuple<T>` -/
theorem stdTuple_spec {d : Layout} (h : d.Proper) : Good (stdTuple d) ∧ (stdTuple d).foot = d.foot := by
  have h1 := lamOf_one h
  rw [lamOf] at h1
  have hne : (classLayout false [] [d]).empty = false := by
    rw [Bool.eq_false_iff]
    intro hc
    have := foot_eq_none.2 hc
    rw [h1.2, foot_eq_none] at this
    rw [h.1] at this; simp at this
  have hp := h1.1.proper hne
  have hc := class_members [classLayout false [] [d]] (by simpa using hp)
  have hs : (([classLayout false [] [d]]).foldl placeMember ([classLayout false [] []].foldl (placeBase false) .start)).size =
      (([classLayout false [] [d]]).foldl placeMember .start).size := rfl
  have ha : (([classLayout false [] [d]]).foldl placeMember ([classLayout false [] []].foldl (placeBase false) .start)).align =
      (([classLayout false [] [d]]).foldl placeMember .start).align := rfl
  have key : Good (stdTuple d) ∧ (stdTuple d).foot = (classLayout false [] [classLayout false [] [d]]).foot := by
    have e1 : (stdTuple d).size = (classLayout false [] [classLayout false [] [d]]).size := rfl
    have e2 : (stdTuple d).nv = (classLayout false [] [classLayout false [] [d]]).nv := rfl
    have e3 : (stdTuple d).align = (classLayout false [] [classLayout false [] [d]]).align := rfl
    have e4 : (stdTuple d).empty = false := rfl
    have e5 : (classLayout false [] [classLayout false [] [d]]).empty = false := rfl
    refine ⟨?_, by simp [Layout.foot, e4, e5, e1, e3]⟩
    have hp' := hc.1.proper e5
    have hnv : (classLayout false [] [classLayout false [] [d]]).nv = (classLayout false [] [classLayout false [] [d]]).size := by
      rcases hc.1 with hz | hz
      · rw [hz.empty] at e5; simp at e5
      · exact hz.nv
    exact .inr ⟨⟨e4, by rw [e1]; exact hp'.2.1, by rw [e3]; exact hp'.2.2.1, by rw [e1, e3]; exact hp'.2.2.2⟩, by rw [e2, e1, hnv]⟩
  refine ⟨key.1, ?_⟩
  rw [key.2, hc.2, ← h1.2]
  exact hp.one

/-- `overload` -/
theorem overload_spec (fs : List Layout) (h : ∀ d ∈ fs, Good d) :
    Good (overload true fs) ∧ (overload true fs).foot = structOf (fs.map Layout.foot) := by
  unfold overload
  split
  · rename_i he
    rw [List.isEmpty_iff] at he
    subst he
    exact ⟨.inl lam_zero, rfl⟩
  · obtain ⟨h1, h2⟩ := class_ebo (TL.partitionT (·.empty) fs) (fun d hd => h d ((partition_mem fs d).1 hd))
    obtain ⟨h3, h4⟩ := class_one true h1
    refine ⟨h3, ?_⟩
    rw [h4, h2, structOf_solid, structOf_solid, solid_partition]

theorem structOf_none (ms : List Foot) : structOf (none :: ms) = structOf ms := by simp [structOf]

/-- An element type: anything. -/
def Element (d : Layout) : Prop := d.empty = true ∨ d.Proper

theorem Good.element {d : Layout} (h : Good d) : Element d := by
  rcases h with h | h
  · exact .inl h.empty
  · exact .inr h.proper

theorem Element.one {d : Layout} (h : Element d) : structOf [d.foot] = d.foot := by
  rcases h with h | h
  · rw [foot_eq_none.2 h]; rfl
  · exact h.one

/-- `compressed_tuple_element` -/
theorem element_spec {d : Layout} (h : Element d) : Good (element true d) ∧ (element true d).foot = d.foot := by
  unfold element
  split
  · rename_i he
    exact ⟨.inl lam_zero, by rw [foot_eq_none.2 he]; rfl⟩
  · rename_i he
    have hp : d.Proper := h.resolve_left he
    obtain ⟨h1, h2⟩ := stdTuple_spec hp
    have hne : (stdTuple d).empty = false := rfl
    obtain ⟨h3, h4⟩ := lamOf_one (h1.proper hne)
    obtain ⟨h5, h6⟩ := overload_spec [lam, lamOf [stdTuple d]] (by
      intro e he
      simp only [List.mem_cons, List.not_mem_nil, or_false] at he
      rcases he with rfl | rfl
      · exact .inl lam_zero
      · exact h3)
    refine ⟨h5, ?_⟩
    rw [h6, List.map_cons, List.map_cons, List.map_nil, foot_eq_none.2 lam_zero.empty, structOf_none, h4, h2]
    exact hp.one

/-- `compressed_tuple` -/
theorem tuple_spec (ds : List Layout) (h : ∀ d ∈ ds, Element d) :
    Good (tuple true ds) ∧ (tuple true ds).foot = structOf (ds.map Layout.foot) := by
  obtain ⟨h1, h2⟩ := overload_spec (ds.map (element true)) (by
    intro e he
    obtain ⟨d, hd, rfl⟩ := List.mem_map.1 he
    exact (element_spec (h d hd)).1)
  obtain ⟨h3, h4⟩ := class_one false h1
  obtain ⟨h5, h6⟩ := class_one false h3
  refine ⟨h5, ?_⟩
  rw [tuple, recursive, h6, h4, h2, List.map_map]
  congr 1
  exact List.map_congr_left fun d hd => (element_spec (h d hd)).2

/-- `t >> f`, `t << f` -/
theorem bound_spec {f t : Layout} (hf : Element f) (ht : Element t) :
    Good (bound true f t) ∧ (bound true f t).foot = structOf [f.foot, t.foot] := by
  obtain ⟨f1, f2⟩ := element_spec hf
  obtain ⟨t1, t2⟩ := element_spec ht
  obtain ⟨h1, h2⟩ := overload_spec [element true f, element true t, lam] (by
    intro e he
    simp only [List.mem_cons, List.not_mem_nil, or_false] at he
    rcases he with rfl | rfl | rfl
    · exact f1
    · exact t1
    · exact .inl lam_zero)
  obtain ⟨h3, h4⟩ := class_one false h1
  refine ⟨h3, ?_⟩
  rw [bound, recursive, h4, h2, List.map_cons, List.map_cons, List.map_cons, List.map_nil, foot_eq_none.2 lam_zero.empty, f2, t2]
  unfold structOf
  have : ∀ a b : Foot, [a, b, none].filterMap id = [a, b].filterMap id := by
    intro a b; cases a <;> cases b <;> rfl
  rw [this]

/-- `compressed_tuple{ ps... } << lambda` -/
theorem bindLam_spec (ps : List Layout) (h : ∀ d ∈ ps, Element d) : Good (bindLam ps) ∧ (bindLam ps).foot = structOf (ps.map Layout.foot) := by
  obtain ⟨h1, h2⟩ := tuple_spec ps h
  obtain ⟨h3, h4⟩ := bound_spec (.inl lam_zero.empty) h1.element
  refine ⟨h3, ?_⟩
  rw [bindLam, h4, foot_eq_none.2 lam_zero.empty, structOf_none, h1.one, h2]

theorem bindLam_one {d : Layout} (h : Element d) : Good (bindLam [d]) ∧ (bindLam [d]).foot = d.foot := by
  obtain ⟨h1, h2⟩ := bindLam_spec [d] (by simpa using h)
  exact ⟨h1, h2.trans h.one⟩

theorem lazyValue_spec {v : Layout} (h : Element v) : Good (lazyValue v) ∧ (lazyValue v).foot = v.foot := by
  have hfl : flag.empty = true := rfl
  obtain ⟨h1, h2⟩ := bindLam_spec [v, flag] (by
    intro e he
    simp only [List.mem_cons, List.not_mem_nil, or_false] at he
    rcases he with rfl | rfl
    · exact h
    · exact .inl hfl)
  refine ⟨h1, ?_⟩
  rw [lazyValue, h2, List.map_cons, List.map_cons, List.map_nil, foot_eq_none.2 hfl]
  refine Eq.trans ?_ h.one
  rcases v.foot with _ | _ <;> rfl

theorem unwrap_spec {f : Layout} (h : Element f) : Good (unwrap f) ∧ (unwrap f).foot = f.foot := by
  obtain ⟨h1, h2⟩ := bindLam_one h
  obtain ⟨h3, h4⟩ := overload_spec [bindLam [f], lam] (by
    intro e he
    simp only [List.mem_cons, List.not_mem_nil, or_false] at he
    rcases he with rfl | rfl
    · exact h1
    · exact .inl lam_zero)
  obtain ⟨h5, h6⟩ := class_one false h3
  refine ⟨h5, ?_⟩
  rw [unwrap, recursive, h6, h4, List.map_cons, List.map_cons, List.map_nil, foot_eq_none.2 lam_zero.empty, h2]
  refine Eq.trans ?_ h.one
  rcases f.foot with _ | _ <;> rfl

theorem detailLazy_spec {cache f : Layout} {deps : List Layout} (hc : cache.Proper) (h : ∀ d ∈ f :: deps, Element d) :
    Good (detailLazy cache f deps) ∧ (detailLazy cache f deps).foot = structOf [cache.foot, structOf ((f :: deps).map Layout.foot)] := by
  obtain ⟨h1, h2⟩ := lamOf_one hc
  obtain ⟨h3, h4⟩ := tuple_spec (f :: deps) h
  obtain ⟨h5, h6⟩ := bound_spec h1.element h3.element
  refine ⟨h5, ?_⟩
  rw [detailLazy, h6, h2, h4]

theorem Types.Plain.cache {Γ : Types U} (h : Γ.Plain) (res : Option U) :
    (Γ.cache res).Proper ∧ (Γ.cache res).foot = Lay.cacheFoot (fun u => (Γ.optional u).foot) res := by
  rcases res with _ | u
  · exact ⟨(by decide : (classLayout false [] [scalar 1]).Proper), rfl⟩
  · exact ⟨h.optional u, rfl⟩

theorem scalar_proper {n : Nat} (h : 0 < n) : (scalar n).Proper := ⟨rfl, h, h, Nat.dvd_refl _⟩

mutual
theorem dep_spec {Γ : Types U} (h : Γ.Plain) : ∀ t : LTree U, Element (dep Γ t) ∧
    (dep Γ t).foot = t.foot (fun u => (Γ.layout u).foot) (fun u => (Γ.optional u).foot) (some (4, 4))
  | .value v => by
    obtain ⟨h1, h2⟩ := lazyValue_spec (h.layout v)
    exact ⟨h1.element, h2⟩
  | .function f res => by
    obtain ⟨f1, f2⟩ := bindLam_one (h.layout f)
    obtain ⟨i1, i2⟩ := lazyValue_spec (.inr (scalar_proper (n := 4) (by omega)))
    obtain ⟨c1, c2⟩ := h.cache (some res)
    obtain ⟨h1, h2⟩ := detailLazy_spec (f := bindLam [Γ.layout f]) (deps := [lazyValue (scalar 4)]) c1 (by
      intro e he
      simp only [List.mem_cons, List.not_mem_nil, or_false] at he
      rcases he with rfl | rfl
      · exact f1.element
      · exact i1.element)
    refine ⟨h1.element, ?_⟩
    rw [dep, h2, c2, List.map_cons, List.map_cons, List.map_nil, f2, i2]
    rfl
  | .lazy f res deps => by
    obtain ⟨f1, f2⟩ := bindLam_one (h.layout f)
    obtain ⟨d1, d2⟩ := depList_spec h deps
    obtain ⟨c1, c2⟩ := h.cache res
    obtain ⟨h1, h2⟩ := detailLazy_spec (f := bindLam [Γ.layout f]) (deps := depList Γ deps) c1 (by
      intro e he
      rcases List.mem_cons.1 he with rfl | he
      · exact f1.element
      · exact d1 e he)
    obtain ⟨u1, u2⟩ := unwrap_spec h1.element
    obtain ⟨b1, b2⟩ := bindLam_one u1.element
    refine ⟨b1.element, ?_⟩
    rw [dep, b2, u2, h2, c2, List.map_cons, f2, d2]
    rfl
theorem depList_spec {Γ : Types U} (h : Γ.Plain) : ∀ ts : List (LTree U), (∀ d ∈ depList Γ ts, Element d) ∧
    (depList Γ ts).map Layout.foot = LTree.foots (fun u => (Γ.layout u).foot) (fun u => (Γ.optional u).foot) (some (4, 4)) ts
  | [] => ⟨by simp [depList], rfl⟩
  | t :: ts => by
    obtain ⟨h1, h2⟩ := dep_spec h t
    obtain ⟨h3, h4⟩ := depList_spec h ts
    refine ⟨?_, ?_⟩
    · intro e he
      rw [depList] at he
      rcases List.mem_cons.1 he with rfl | he
      · exact h1
      · exact h3 e he
    · rw [depList, List.map_cons, h2, h4]
      rfl
end

/-! ### uncapture.h -/

theorem uncaptured_spec {v : Layout} (h : Element v) : Good (uncaptured v) ∧ (uncaptured v).foot = v.foot ∧ (uncaptured v).leads = v.empty ∧
    (uncaptured v).ends = (v.empty || v.ends) := by
  unfold uncaptured
  split
  · rename_i he
    exact ⟨.inl lam_zero, by rw [foot_eq_none.2 he]; rfl, by rw [he]; rfl, by rw [he]; rfl⟩
  · rename_i he
    have hp := h.resolve_left he
    obtain ⟨h1, h2⟩ := lamOf_one hp
    rw [lamOf] at h1 h2
    have hz : (classLayout false [] [v]).nv ≠ 0 := by
      have e : (classLayout false [] [v]).empty = false := rfl
      rcases h1 with h1 | h1
      · rw [h1.empty] at e; simp at e
      · rw [h1.nv]; have := h1.proper.2.1; omega
    have hl : (classLayout false [] [v]).leads = ((classLayout false [] [v]).nv == 0 && !(false && (classLayout false [] [v]).empty) || false) := rfl
    have he' : (classLayout false [] [v]).ends = ((classLayout false [] [v]).nv == 0 && !(false && (classLayout false [] [v]).empty) || v.ends) := rfl
    have hz' : ((classLayout false [] [v]).nv == 0) = false := by simpa using hz
    rw [Bool.not_eq_true] at he
    refine ⟨h1, h2, ?_, ?_⟩
    · rw [hl, hz', he]; rfl
    · rw [he', hz', he]; rfl

/-- Two base classes, between which no byte is left. -/
theorem class_two {u r : Layout} (hu : Good u) (hr : Good r) (h : (u.ends && r.leads) = false) :
    Good (classLayout false [u, r] []) ∧ (classLayout false [u, r] []).foot = structOf [u.foot, r.foot] := by
  have hb : ∀ (p : Progress) (d : Layout), Good d → (p.prev == some true && d.leads) = false →
      ((placeBase false p d).size = (placeBase true p d).size ∨ d.empty = true ∧ (placeBase false p d).size = p.size ∧ (placeBase true p d).size = p.size) ∧
      (placeBase false p d).align = (placeBase true p d).align := by
    intro p d hd hp
    refine ⟨?_, rfl⟩
    rcases hd with hd | hd
    · right
      refine ⟨hd.empty, ?_, ?_⟩
      · simp [placeBase, baseOffset, hd.nv, hd.align, hp, roundUp]
      · simp [placeBase, hd.empty, hd.nv]
    · left
      simp [placeBase, baseOffset, hd.proper.1, hp]
  have hb' : ∀ (p : Progress) (d : Layout), Good d → (p.prev == some true && d.leads) = false →
      (placeBase false p d).size = (placeBase true p d).size := by
    intro p d hd hp
    rcases (hb p d hd hp).1 with h | ⟨-, h1, h2⟩
    · exact h
    · rw [h1, h2]
  have s1 := hb' .start u hu rfl
  have s2 := hb' (placeBase false .start u) r hr (by
    show (some u.ends == some true && r.leads) = false
    revert h; cases u.ends <;> cases r.leads <;> simp)
  have hd : ∀ e ∈ [u, r], Good e := by
    intro e he
    simp only [List.mem_cons, List.not_mem_nil, or_false] at he
    rcases he with rfl | rfl
    · exact hu
    · exact hr
  have s3 : (placeBase true (placeBase false .start u) r).size = (placeBase true (placeBase true .start u) r).size := by
    simp only [placeBase, baseOffset, if_true, Bool.true_and]
    have : (placeBase false .start u).size = (placeBase true .start u).size := s1
    simp only [placeBase, baseOffset, if_true, Bool.true_and] at this
    rw [this]
  have e1 : structOf [u.foot, r.foot] = if solid [u, r] = [] then none else some (structSize (solid [u, r]), strictest (solid [u, r])) := rfl
  rw [e1]
  rcases bases_ebo [u, r] .start hd with ⟨h2, h3⟩ | h2
  · refine good_of (ms := solid [u, r]) ?_ ?_ (by simp [solid_nil_iff]) (solid_pos hd)
    · exact (s2.trans s3).trans h2
    · exact h3
  · simp at h2

theorem uncapture_leads (f : Layout) (hf : Good f) : ∀ vs : List Layout, (∀ v ∈ vs, Element v) → Separated f vs →
    Good (uncapture false f vs) ∧ (uncapture false f vs).foot = vs.foldr (fun v r => structOf [v.foot, r]) f.foot ∧
    ((uncapture false f vs).leads = begins f vs ∨ ∃ v ws, vs = v :: ws ∧ v.empty = true)
  | [], _, _ => ⟨hf, rfl, .inl rfl⟩
  | v :: vs, hv, hs => by
    obtain ⟨i1, i2, i3⟩ := uncapture_leads f hf vs (fun w hw => hv w (by simp [hw])) hs.2
    obtain ⟨u1, u2, u3, u4⟩ := uncaptured_spec (hv v (by simp))
    have hno : ((uncaptured v).ends && (uncapture false f vs).leads) = false := by
      rw [u4]
      rcases hve : (v.empty || v.ends) with _ | _
      · rfl
      · have hb := hs.1 hve
        rcases i3 with i3 | ⟨w, ws, rfl, hw⟩
        · rw [i3, hb]; rfl
        · simp [begins, hw] at hb
    obtain ⟨c1, c2⟩ := class_two u1 i1 hno
    refine ⟨c1, ?_, ?_⟩
    · rw [uncapture, c2, u2, i2, List.foldr_cons]
    · rcases he : v.empty with _ | _
      · left
        have hl : (uncapture false f (v :: vs)).leads =
          ((uncapture false f (v :: vs)).nv == 0 && !(false && (uncapture false f (v :: vs)).empty) || (uncaptured v).leads) := rfl
        have hne : (uncapture false f (v :: vs)).empty = false := by
          rw [Bool.eq_false_iff]
          intro hc
          have : (uncaptured v).empty = true := by
            have : ((uncaptured v).empty && ((uncapture false f vs).empty && true)) = true := hc
            simp at this; exact this.1
          rw [← foot_eq_none, u2, foot_eq_none, he] at this
          simp at this
        have hnv : ((uncapture false f (v :: vs)).nv == 0) = false := by
          rcases c1 with c1 | c1
          · have := c1.empty; rw [← uncapture, hne] at this; simp at this
          · have h1 := c1.nv; have h2 := c1.proper.2.1
            rw [← uncapture] at h1 h2
            simp; omega
        rw [hl, hnv, u3, he, begins, he]; rfl
      · exact .inr ⟨v, vs, rfl, he⟩

/-- If `CompressedInvocable` were declared with `__declspec(empty_bases)`. -/
theorem uncapture_ebo (f : Layout) (hf : Good f) : ∀ vs : List Layout, (∀ v ∈ vs, Element v) →
    Good (uncapture true f vs) ∧ (uncapture true f vs).foot = vs.foldr (fun v r => structOf [v.foot, r]) f.foot
  | [], _ => ⟨hf, rfl⟩
  | v :: vs, hv => by
    obtain ⟨i1, i2⟩ := uncapture_ebo f hf vs (fun w hw => hv w (by simp [hw]))
    obtain ⟨u1, u2, -⟩ := uncaptured_spec (hv v (by simp))
    obtain ⟨c1, c2⟩ := class_ebo [uncaptured v, uncapture true f vs] (by
      intro e he
      simp only [List.mem_cons, List.not_mem_nil, or_false] at he
      rcases he with rfl | rfl
      · exact u1
      · exact i1)
    refine ⟨c1, ?_⟩
    rw [uncapture, c2, List.map_cons, List.map_cons, List.map_nil, u2, i2, List.foldr_cons]

/-- All values empty: a byte for each. -/
theorem uncapture_empties {f : Layout} (hf : Zero f) (hl : f.leads = true) : ∀ (v : Layout) (vs : List Layout), v.empty = true → (∀ w ∈ vs, w.empty = true) →
    uncapture false f (v :: vs) = ⟨vs.length + 1, vs.length + 1, 1, true, true, f.ends⟩
  | v, [], hv, _ => by
    simp [uncapture, uncaptured, hv, classLayout, placeBase, baseOffset, Progress.start, hf.nv, hf.align, hf.empty, hl, roundUp]
  | v, w :: vs, hv, hw => by
    have ih := uncapture_empties hf hl w vs (hw w (by simp)) (fun x hx => hw x (by simp [hx]))
    rw [uncapture, ih]
    simp [uncaptured, hv, classLayout, placeBase, baseOffset, Progress.start, roundUp]
    omega

end Pigro.Ms
