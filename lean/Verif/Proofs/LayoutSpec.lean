import Verif.Proofs.Layout
import Verif.Props.Partition
/-!
# Layout of compressed tuples and bound callables
-/
namespace Pigro.Lay
variable {T N : Type} [DecidableEq T]

omit [DecidableEq T] in
theorem classLayout_empty [DecidableEq N] (name : N) (bases : List (Layout N)) : (classLayout name bases []).empty = bases.all (·.empty) := by
  simp [classLayout]

omit [DecidableEq T] in
theorem partition_spec (fs : List (Layout N)) :
    TL.partitionT (·.empty) fs = fs.filter (·.empty) ++ fs.filter (! ·.empty) := by
  have h := TL.partition_eq fs (TL.predicate (·.empty))
  rw [TL.partitionT, h, TL.filterIf_eq, TL.filterIf_eq]
  rfl

omit [DecidableEq T] in
theorem partition_all (fs : List (Layout N)) : (TL.partitionT (·.empty) fs).all (·.empty) = fs.all (·.empty) := by
  rw [partition_spec, List.all_append, Bool.eq_iff_iff]
  simp only [Bool.and_eq_true, List.all_eq_true, List.mem_filter, Bool.not_eq_true']
  constructor
  · rintro ⟨-, h⟩ x hx
    cases he : x.empty
    · have := h x ⟨hx, he⟩; rw [he] at this; simp at this
    · rfl
  · intro h
    exact ⟨fun x hx => hx.2, fun x hx => h x hx.1⟩

theorem overloadLayout_empty (msvc : Bool) (b : Option Bool) (ts : List T) (fs : List (Layout (Name T))) :
    (overloadLayout msvc b ts fs).empty = fs.all (·.empty) := by
  cases msvc
  · simp [overloadLayout, classLayout_empty]
  · simp [overloadLayout, classLayout_empty, partition_all]

theorem elementLayout_empty (tag : Nat) (p : Part T) : (elementLayout tag p).empty = p.layout.empty := by
  cases h : p.layout.empty <;> simp [elementLayout, h, classLayout]

/-- A `compressed_tuple` is an empty class iff all its elements are. -/
theorem tupleLayout_empty (msvc : Bool) (parts : List (Part T)) :
    (tupleLayout msvc parts).empty = parts.all (·.layout.empty) := by
  simp only [tupleLayout, classLayout_empty, overloadLayout_empty, List.all_cons, List.all_nil, Bool.and_true, List.all_map]
  rw [Bool.eq_iff_iff]
  simp only [List.all_eq_true, Function.comp_apply, elementLayout_empty]
  constructor
  · intro h x hx
    obtain ⟨i, hi, rfl⟩ := List.getElem_of_mem hx
    exact h (parts[i], i) (List.mk_mem_zipIdx_iff_getElem?.2 (by simp [hi]))
  · rintro h ⟨x, i⟩ hx
    exact h x (List.mem_of_getElem? (List.mk_mem_zipIdx_iff_getElem?.1 hx))

/-- A bound callable is an empty class iff callable and tuple are. -/
theorem boundLayout_empty (msvc back : Bool) (f t : Part T) :
    (boundLayout msvc back f t).empty = (f.layout.empty && t.layout.empty) := by
  simp [boundLayout, classLayout_empty, overloadLayout_empty, elementLayout_empty, classLayout_nil]

/-- `overload` of bases that fit. -/
theorem overloadLayout_spec (msvc : Bool) (b : Option Bool) (ts : List T) (fs : List (Layout (Name T)))
    (hb : ∀ d ∈ fs, d.Base) (hf : Fits fs) :
    let c := overloadLayout msvc b ts fs
    c.Chain ∧ c.size = structSize (solid fs) ∧ c.align = strictest (solid fs) ∧ (∀ e ∈ c.empties, e.2 < c.size) ∧
    c.nvsize = max (membersEnd (solid fs) 0) 1 ∧ c.empty = fs.all (·.empty) ∧ ∀ n, c.empty = false → (n, 0) ∈ c.empties →
      (∃ d ∈ fs, d.empty = true ∧ (n, 0) ∈ d.empties) ∨ ∃ f, fs.find? (! ·.empty) = some f ∧ (n, 0) ∈ f.empties := by
  intro c
  have hc : c = overloadLayout msvc b ts fs := rfl
  have hce : c.empty = fs.all (·.empty) := overloadLayout_empty msvc b ts fs
  cases msvc
  · obtain ⟨h1, h0, h2, h3, h4, h5, h6⟩ := classLayout_bases (.overload b ts) fs hb hf
    refine ⟨h1, h2, h3, h5, h0, hce, ?_⟩
    intro n he hn
    rcases h6 n hn with ⟨-, h⟩ | h
    · exact absurd (he.symm.trans h) (by simp)
    · exact h
  · have hsolid : solid (TL.partitionT (·.empty) fs) = solid fs := by
      rw [partition_spec, solid, solid, List.filter_append, List.filter_filter, List.filter_filter]
      congr 1
      rw [List.filter_eq_nil_iff.2 (by simp)]
      simp
    have hfind : (TL.partitionT (·.empty) fs).find? (! ·.empty) = fs.find? (! ·.empty) := by
      rw [partition_spec, List.find?_append, List.find?_eq_none.2 (by simp), Option.none_or]
      rw [← List.head?_filter, ← List.head?_filter, List.filter_filter]
      simp
    have hfits : Fits (TL.partitionT (·.empty) fs) := by
      rw [partition_spec]
      refine ⟨?_, ?_⟩
      · rw [List.filter_append, List.filter_filter, List.filter_filter]
        rw [List.filter_eq_nil_iff.2 (by simp : ∀ a ∈ fs, ¬(a.empty && !a.empty) = true), List.append_nil]
        simpa using hf.1
      · intro f hff d hd hde
        have : fs.find? (! ·.empty) = some f := by
          rw [List.find?_append, List.find?_eq_none.2 (by simp), Option.none_or] at hff
          rw [← List.head?_filter] at hff ⊢
          rw [List.filter_filter] at hff
          simpa using hff
        refine hf.2 f this d ?_ hde
        rcases List.mem_append.1 hd with hd | hd <;> exact (List.mem_filter.1 hd).1
    obtain ⟨h1, h0, h2, h3, h4, h5, h6⟩ := classLayout_bases (.overloadImpl b ts) (TL.partitionT (·.empty) fs) (by
      intro d hd
      rw [partition_spec] at hd
      rcases List.mem_append.1 hd with hd | hd <;> exact hb d (List.mem_filter.1 hd).1) hfits
    obtain ⟨s1, s2, s3, s4, s5⟩ := classLayout_single (.overload b ts) _ h1
    have s6 := classLayout_single_nv (.overload b ts) _ h1
    rw [hsolid] at h0 h2 h3
    have hcc : c = classLayout (.overload b ts) [classLayout (.overloadImpl b ts) (TL.partitionT (·.empty) fs) []] [] := by
      rw [hc, overloadLayout, if_pos rfl]
    rw [hcc] at hce ⊢
    refine ⟨s1, by rw [s2, h2], by rw [s3, h3], ?_, by rw [s6, h0], hce, ?_⟩
    rotate_left
    · intro n he hn
      rw [s5, if_neg (by rw [← s4, he]; simp)] at hn
      rcases h6 n hn with ⟨-, h⟩ | ⟨d, hd, h⟩ | ⟨f, hf', h⟩
      · rw [← s4, he] at h; simp at h
      · rw [partition_spec] at hd
        refine .inl ⟨d, ?_, h⟩
        rcases List.mem_append.1 hd with hd | hd <;> exact (List.mem_filter.1 hd).1
      · rw [hfind] at hf'
        exact .inr ⟨f, hf', h⟩
    intro e he
    rw [s5] at he
    rw [s2]
    split at he
    · rcases List.mem_cons.1 he with rfl | he
      · rw [h2]
        have := h1.2.2.1
        have := le_roundUp (classLayout (.overloadImpl b ts) (TL.partitionT (·.empty) fs) []).nvsize _ h1.1
        have := h1.2.1
        simp only
        omega
      · exact h5 e he
    · exact h5 e he

/-- Position of the first non-empty element. -/
theorem find_elements (l : List (Part T)) : ∀ (k : Nat) (f : Layout (Name T)),
    ((l.zipIdx k).map fun p => elementLayout p.2 p.1).find? (! ·.empty) = some f →
    ∃ (i : Nat) (p : Part T), l[i]? = some p ∧ p.layout.empty = false ∧ f = elementLayout (k + i) p ∧
      l.find? (! ·.layout.empty) = some p := by
  induction l with
  | nil => intro k f h; simp at h
  | cons x l ih =>
    intro k f h
    rw [List.zipIdx_cons, List.map_cons, List.find?_cons] at h
    rw [elementLayout_empty] at h
    cases hx : x.layout.empty
    · rw [hx] at h
      simp only [Bool.not_false, Option.some.injEq] at h
      exact ⟨0, x, rfl, hx, h.symm, by simp [hx]⟩
    · rw [hx] at h
      simp only [Bool.not_true] at h
      obtain ⟨i, p, h1, h2, h3, h4⟩ := ih (k + 1) f h
      exact ⟨i + 1, p, by simpa using h1, h2, by rw [h3]; congr 1; omega, by simp [hx, h4]⟩

/-- Derived classes of a single base. -/
theorem chain_proper {c : Layout N} (h : c.Chain) (he : ∀ e ∈ c.empties, e.2 < c.size) : c.empty = true ∨ c.Proper := by
  obtain ⟨h1, h2, h3, -⟩ := h
  cases hc : c.empty
  · refine .inr ⟨hc, ?_, h1, ?_, he⟩
    · have := le_roundUp c.nvsize c.align h1; omega
    · rw [h3, roundUp_eq _ _ h1]; exact dvd_pad _ _ h1
  · exact .inl rfl

/-- The layout of a `compressed_tuple` whose types do not clash. -/
theorem tupleLayout_spec (msvc : Bool) (parts : List (Part T)) (hp : ∀ p ∈ parts, p.layout.empty = true ∨ p.layout.Proper)
    (hown : ∀ (i : Nat) (p : Part T), parts[i]? = some p → (.constGet i p.ty, 0) ∉ p.layout.empties)
    (hclash : ∀ f, parts.find? (! ·.layout.empty) = some f → ∀ (i : Nat) (q : Part T), parts[i]? = some q → q.layout.empty = true →
      (.emptyElem i q.ty, 0) ∉ f.layout.empties) :
    let c := tupleLayout msvc parts
    c.size = structSize (solid (parts.map (·.layout))) ∧ c.align = strictest (solid (parts.map (·.layout))) ∧
    (c.empty = true ∨ c.Proper) ∧ ∀ n, c.empty = false → (n, 0) ∈ c.empties →
      (∃ (i : Nat) (q : Part T), parts[i]? = some q ∧ q.layout.empty = true ∧ n = .emptyElem i q.ty) ∨
      ∃ (i : Nat) (f : Part T), parts[i]? = some f ∧ parts.find? (! ·.layout.empty) = some f ∧
        (n = .constGet i f.ty ∨ (n, 0) ∈ f.layout.empties) := by
  intro c
  let fs := parts.zipIdx.map fun p => elementLayout p.2 p.1
  have hfs : ∀ (i : Nat) (p : Part T), parts[i]? = some p → fs[i]? = some (elementLayout i p) := by
    intro i p hi
    simp [fs, List.getElem?_map, List.getElem?_zipIdx, hi]
  have hfs' : ∀ (i : Nat) (d : Layout (Name T)), fs[i]? = some d → ∃ p, parts[i]? = some p ∧ d = elementLayout i p := by
    intro i d hi
    have hil : i < parts.length := by have := (List.getElem?_eq_some_iff.1 hi).1; simpa [fs] using this
    have := hfs i parts[i] (by simp [hil])
    rw [hi, Option.some.injEq] at this
    exact ⟨parts[i], by simp [hil], this⟩
  have hel : ∀ (i : Nat) (p : Part T), parts[i]? = some p → _ := fun i p hi =>
    elementLayout_spec i p (hp p (List.mem_of_getElem? hi)) (fun _ => hown i p hi)
  have hb : ∀ d ∈ fs, d.Base := by
    intro d hd
    obtain ⟨i, hi⟩ := List.mem_iff_getElem?.1 hd
    obtain ⟨p, h1, rfl⟩ := hfs' i d hi
    exact (hel i p h1).1
  have hf : Fits fs := by
    refine ⟨?_, ?_⟩
    · rw [List.pairwise_filter, List.pairwise_iff_getElem]
      intro i j hi hj hij h1 h2 n hn hn'
      obtain ⟨p, hp1, hp2⟩ := hfs' i fs[i] (by simp [hi])
      obtain ⟨q, hq1, hq2⟩ := hfs' j fs[j] (by simp [hj])
      rw [hp2] at h1 hn
      rw [hq2] at h2 hn'
      rw [(hel i p hp1).2.2.1 h1] at hn
      rw [(hel j q hq1).2.2.1 h2] at hn'
      simp only [List.mem_singleton, Prod.mk.injEq, and_true] at hn hn'
      rw [hn] at hn'
      simp only [Name.emptyElem.injEq] at hn'
      omega
    · intro f hff d hd hde
      obtain ⟨i, p, g1, g2, g3, g4⟩ := find_elements parts 0 f hff
      rw [Nat.zero_add] at g3
      obtain ⟨j, hj⟩ := List.mem_iff_getElem?.1 hd
      obtain ⟨q, hq1, rfl⟩ := hfs' j d hj
      have hqe : q.layout.empty = true := by rw [← elementLayout_empty j]; exact hde
      have hnot : (.emptyElem j q.ty, 0) ∉ f.empties := by
        intro h
        rw [g3] at h
        rcases ((hel i p g1).2.2.2 (by rw [elementLayout_empty, g2])).2.2 _ h with h | h
        · simp at h
        · exact hclash p g4 j q hq1 hqe h
      constructor
      · intro n hn hn'
        rw [(hel j q hq1).2.2.1 hde] at hn
        simp only [List.mem_singleton, Prod.mk.injEq, and_true] at hn
        rw [hn] at hn'
        exact hnot hn'
      · intro n hn hn'
        rw [(hel j q hq1).2.2.1 hde] at hn'
        simp only [List.mem_singleton, Prod.mk.injEq, and_true] at hn'
        rw [hn'] at hn
        exact hnot hn
  have hsolid : solid fs = solid (parts.map (·.layout)) := by
    simp only [solid, fs, List.filter_map, List.map_map]
    have key : ∀ (l : List (Part T)) (k : Nat), (∀ (i : Nat) p, l[i]? = some p → parts[k + i]? = some p) →
        ((l.zipIdx k).filter ((! ·.empty) ∘ fun p => elementLayout p.2 p.1)).map ((fun d => (d.size, d.align)) ∘ fun p => elementLayout p.2 p.1) =
          (l.filter ((! ·.empty) ∘ (·.layout))).map ((fun d => (d.size, d.align)) ∘ (·.layout)) := by
      intro l
      induction l with
      | nil => intro k _; rfl
      | cons x l ih =>
        intro k hk
        have ih := ih (k + 1) (fun i p hi => by have := hk (i + 1) p (by simpa using hi); rw [← this]; congr 1; omega)
        rw [List.zipIdx_cons, List.filter_cons, List.filter_cons]
        simp only [Function.comp_apply, elementLayout_empty]
        have hx := hel k x (by simpa using hk 0 x rfl)
        by_cases he : x.layout.empty = true
        · rw [if_neg (by simp [he]), if_neg (by simp [he])]
          exact ih
        · rw [Bool.not_eq_true] at he
          rw [if_pos (by simp [he]), if_pos (by simp [he])]
          simp only [List.map_cons, Function.comp_apply, List.cons.injEq]
          obtain ⟨h1, h2, -⟩ := hx.2.2.2 (by rw [elementLayout_empty, he])
          exact ⟨by rw [h1, h2], ih⟩
    exact key parts 0 (by simp)
  obtain ⟨o1, o2, o3, o4, -, -, o7⟩ := overloadLayout_spec msvc none (parts.map (·.ty)) fs hb hf
  obtain ⟨r1, r2, r3, r4, r5⟩ := classLayout_single (.recursive none (parts.map (·.ty))) _ o1
  obtain ⟨t1, t2, t3, t4, t5⟩ := classLayout_single (.tuple (parts.map (·.ty))) _ r1
  rw [hsolid] at o2 o3
  refine ⟨by rw [← o2, ← r2, ← t2]; rfl, by rw [← o3, ← r3, ← t3]; rfl, ?_, ?_⟩
  rotate_left
  · intro n he hn
    have hcc : c = classLayout (.tuple (parts.map (·.ty))) [classLayout (.recursive none (parts.map (·.ty)))
      [overloadLayout msvc none (parts.map (·.ty)) fs] []] [] := rfl
    rw [hcc] at he hn
    rw [t4, r4] at he
    rw [t5, r5, if_neg (by rw [r4, he]; simp), if_neg (by rw [he]; simp)] at hn
    rcases o7 n he hn with ⟨d, hd, hde, hn⟩ | ⟨f, hf, hn⟩
    · obtain ⟨i, hi⟩ := List.mem_iff_getElem?.1 hd
      obtain ⟨q, hq, rfl⟩ := hfs' i d hi
      rw [(hel i q hq).2.2.1 hde] at hn
      simp only [List.mem_singleton, Prod.mk.injEq, and_true] at hn
      exact .inl ⟨i, q, hq, by rw [← elementLayout_empty i]; exact hde, hn⟩
    · obtain ⟨i, p, g1, g2, g3, g4⟩ := find_elements parts 0 f hf
      rw [Nat.zero_add] at g3
      rw [g3] at hn
      exact .inr ⟨i, p, g1, g4, ((hel i p g1).2.2.2 (by rw [elementLayout_empty, g2])).2.2 _ hn⟩
  apply chain_proper t1
  have hpos : 0 < (overloadLayout msvc none (parts.map (·.ty)) fs).size := by
    have := le_roundUp (overloadLayout msvc none (parts.map (·.ty)) fs).nvsize _ o1.1
    have := o1.2.1
    have := o1.2.2.1
    omega
  intro e he
  rw [t2, r2]
  rw [t5, r5] at he
  have : e.2 = 0 ∨ e ∈ (overloadLayout msvc none (parts.map (·.ty)) fs).empties := by
    split at he <;> split at he <;> try simp only [List.mem_cons] at he
    · rcases he with rfl | rfl | he
      · exact .inl rfl
      · exact .inl rfl
      · exact .inr he
    · rcases he with rfl | he
      · exact .inl rfl
      · exact .inr he
    · rcases he with rfl | he
      · exact .inl rfl
      · exact .inr he
    · exact .inr he
  rcases this with h | h
  · rw [h]; exact hpos
  · exact o4 e h

/-- The layout of a bound callable whose types do not clash. -/
theorem boundLayout_spec (msvc back : Bool) (f t : Part T) (hf : f.layout.empty = true ∨ f.layout.Proper)
    (ht : t.layout.empty = true ∨ t.layout.Proper) (hownf : (.constGet 0 f.ty, 0) ∉ f.layout.empties)
    (hownt : (.constGet 1 t.ty, 0) ∉ t.layout.empties)
    (hclash : ∀ d, [f, t].find? (! ·.layout.empty) = some d → (.generic back f.ty t.ty, 0) ∉ d.layout.empties ∧
      (f.layout.empty = true → (.emptyElem 0 f.ty, 0) ∉ d.layout.empties) ∧
      (t.layout.empty = true → (.emptyElem 1 t.ty, 0) ∉ d.layout.empties)) :
    let c := boundLayout msvc back f t
    c.size = structSize (solid [f.layout, t.layout]) ∧ c.align = strictest (solid [f.layout, t.layout]) ∧
    c.nvsize = max (membersEnd (solid [f.layout, t.layout]) 0) 1 ∧ (c.empty = true ∨ c.Proper) ∧
    ∀ n, c.empty = false → (n, 0) ∈ c.empties → n = .generic back f.ty t.ty ∨
      (f.layout.empty = true ∧ n = .emptyElem 0 f.ty) ∨ (t.layout.empty = true ∧ n = .emptyElem 1 t.ty) ∨
      ∃ (i : Nat) (d : Part T), [f, t].find? (! ·.layout.empty) = some d ∧ (n = .constGet i d.ty ∨ (n, 0) ∈ d.layout.empties) := by
  intro c
  obtain ⟨f1, f2, f3, f4⟩ := elementLayout_spec 0 f hf (fun _ => hownf)
  obtain ⟨t1, t2, t3, t4⟩ := elementLayout_spec 1 t ht (fun _ => hownt)
  generalize hFE : elementLayout 0 f = fe at f1 f2 f3 f4
  generalize hTE : elementLayout 1 t = te at t1 t2 t3 t4
  have hg := classLayout_nil (Name.generic back f.ty t.ty)
  generalize hGE : classLayout (Name.generic back f.ty t.ty) [] [] = ge at hg
  have hb : ∀ d ∈ [fe, te, ge], d.Base := by
    intro d hd
    simp only [List.mem_cons, List.not_mem_nil, or_false] at hd
    rcases hd with rfl | rfl | rfl
    · exact f1
    · exact t1
    · rw [hg]; exact .inl ⟨rfl, rfl, rfl, by simp⟩
  -- names at offset 0 of an empty one
  have hz : ∀ d ∈ [fe, te, ge], d.empty = true → ∀ n, (n, 0) ∈ d.empties →
      (d = fe ∧ f.layout.empty = true ∧ n = .emptyElem 0 f.ty) ∨ (d = te ∧ t.layout.empty = true ∧ n = .emptyElem 1 t.ty) ∨
      (d = ge ∧ n = .generic back f.ty t.ty) := by
    intro d hd he n hn
    simp only [List.mem_cons, List.not_mem_nil, or_false] at hd
    rcases hd with rfl | rfl | rfl
    · rw [f3 he] at hn
      exact .inl ⟨rfl, by rw [← f2, he], by simpa using hn⟩
    · rw [t3 he] at hn
      exact .inr (.inl ⟨rfl, by rw [← t2, he], by simpa using hn⟩)
    · rw [hg] at hn
      exact .inr (.inr ⟨rfl, by simpa using hn⟩)
  -- the first one that is not empty
  have hfirst : ∀ x, [fe, te, ge].find? (! ·.empty) = some x → ∃ (tag : Nat) (y : Part T), [f, t].find? (! ·.layout.empty) = some y ∧
      ∀ n, (n, 0) ∈ x.empties → n = .constGet tag y.ty ∨ (n, 0) ∈ y.layout.empties := by
    intro x hx
    cases hfe : f.layout.empty
    · rw [hfe] at f2
      rw [List.find?_cons, f2] at hx
      simp only [Bool.not_false, Option.some.injEq] at hx
      subst hx
      exact ⟨0, f, by simp [hfe], (f4 f2).2.2⟩
    · rw [hfe] at f2
      rw [List.find?_cons, f2] at hx
      simp only [Bool.not_true] at hx
      cases hte : t.layout.empty
      · rw [hte] at t2
        rw [List.find?_cons, t2] at hx
        simp only [Bool.not_false, Option.some.injEq] at hx
        subst hx
        exact ⟨1, t, by simp [hfe, hte], (t4 t2).2.2⟩
      · rw [hte] at t2
        rw [List.find?_cons, t2, hg] at hx
        simp at hx
  have hfits : Fits [fe, te, ge] := by
    refine ⟨?_, ?_⟩
    · rw [List.pairwise_filter]
      refine List.Pairwise.cons ?_ (List.Pairwise.cons ?_ (List.Pairwise.cons (by simp) .nil))
      · intro d hd h1 h2 n hn hn'
        rw [f3 h1] at hn
        simp only [List.mem_singleton, Prod.mk.injEq, and_true] at hn
        subst hn
        simp only [List.mem_cons, List.not_mem_nil, or_false] at hd
        rcases hd with rfl | rfl
        · rw [t3 h2] at hn'; simp at hn'
        · rw [hg] at hn'; simp at hn'
      · intro d hd h1 h2 n hn hn'
        rw [t3 h1] at hn
        simp only [List.mem_singleton, Prod.mk.injEq, and_true] at hn
        subst hn
        rw [List.mem_singleton] at hd
        subst hd
        rw [hg] at hn'; simp at hn'
    · intro x hx d hd hde
      obtain ⟨tag, y, hy1, hy2⟩ := hfirst x hx
      obtain ⟨c1, c2, c3⟩ := hclash y hy1
      have key : ∀ n, (n, 0) ∈ d.empties → (n, 0) ∉ x.empties := by
        intro n hn hn'
        rcases hz d hd hde n hn with ⟨-, h1, rfl⟩ | ⟨-, h1, rfl⟩ | ⟨-, rfl⟩ <;> rcases hy2 _ hn' with h | h
        · simp at h
        · exact c2 h1 h
        · simp at h
        · exact c3 h1 h
        · simp at h
        · exact c1 h
      exact ⟨key, fun n hn hn' => key n hn' hn⟩
  have hsolid : solid [fe, te, ge] = solid [f.layout, t.layout] := by
    have e3 : ge.empty = true := by rw [hg]
    cases h1 : f.layout.empty <;> cases h2 : t.layout.empty <;> rw [h1] at f2 <;> rw [h2] at t2 <;>
      simp only [solid, List.filter_cons, f2, t2, e3, h1, h2, Bool.not_true, Bool.not_false, Bool.false_eq_true, if_true, if_false, List.filter_nil,
        List.map_cons, List.map_nil]
    · rw [(f4 f2).1, (f4 f2).2.1, (t4 t2).1, (t4 t2).2.1]
    · rw [(f4 f2).1, (f4 f2).2.1]
    · rw [(t4 t2).1, (t4 t2).2.1]
  obtain ⟨o1, o2, o3, o4, o5, o6, o7⟩ := overloadLayout_spec msvc (some back) [f.ty, t.ty] [fe, te, ge] hb hfits
  obtain ⟨r1, r2, r3, r4, r5⟩ := classLayout_single (.recursive (some back) [f.ty, t.ty]) _ o1
  have r6 := classLayout_single_nv (.recursive (some back) [f.ty, t.ty]) _ o1
  rw [hsolid] at o2 o3 o5
  have hc : c = classLayout (.recursive (some back) [f.ty, t.ty]) [overloadLayout msvc (some back) [f.ty, t.ty] [fe, te, ge]] [] := by
    rw [← hFE, ← hTE, ← hGE]; rfl
  rw [hc]
  refine ⟨by rw [r2, o2], by rw [r3, o3], by rw [r6, o5], chain_proper r1 ?_, ?_⟩
  · intro e he
    rw [r5] at he
    rw [r2]
    split at he
    · rcases List.mem_cons.1 he with rfl | he
      · have := le_roundUp (overloadLayout msvc (some back) [f.ty, t.ty] [fe, te, ge]).nvsize _ o1.1
        have := o1.2.1
        have := o1.2.2.1
        simp only
        omega
      · exact o4 e he
    · exact o4 e he
  · intro n he hn
    rw [r4] at he
    rw [r5, if_neg (by rw [he]; simp)] at hn
    rcases o7 n he hn with ⟨d, hd, hde, hn⟩ | ⟨x, hx, hn⟩
    · rcases hz d hd hde n hn with ⟨-, h⟩ | ⟨-, h⟩ | ⟨-, h⟩
      · exact .inr (.inl h)
      · exact .inr (.inr (.inl h))
      · exact .inl h
    · obtain ⟨tag, y, hy1, hy2⟩ := hfirst x hx
      exact .inr (.inr (.inr ⟨tag, y, hy1, hy2 n hn⟩))

end Pigro.Lay
