import Verif.Proofs.LazyLayout
import Verif.Proofs.Offsets
import Verif.Spec.MsOffsets
/-!
# Exact offsets (Itanium C++ ABI), if types do not clash
-/
namespace Pigro.Lay
variable {T N : Type}

theorem start_placed [DecidableEq N] : Placed ([] : List (Layout N)) .start := ⟨rfl, rfl, rfl, by simp [Progress.start], by simp⟩

/-- A base class that is not empty is placed like a member of a struct. -/
theorem Placed.offset [DecidableEq N] {pre rest : List (Layout N)} {d : Layout N} {p : Progress N} (h : Placed pre p)
    (hb : d.Base) (hf : Fits (pre ++ d :: rest)) (he : d.empty = false) :
    baseOffset p d = membersEnd (solid pre) 0 + padding (membersEnd (solid pre) 0) d.align := by
  have h1 := (h.step hb hf).dsize
  have hnv : d.nvsize = d.size := by
    rcases hb with ⟨h2, -⟩ | ⟨-, h2⟩
    · rw [he] at h2; simp at h2
    · exact h2
  rw [solid_snoc, he, membersEnd_append] at h1
  simp only [placeBase, he, Bool.false_eq_true, if_false, membersEnd, hnv] at h1
  simp only [baseOffset, he, Bool.false_eq_true, if_false]
  omega

theorem offsets_exact [DecidableEq N] : ∀ (ds pre : List (Layout N)) (p : Progress N), Placed pre p → (∀ d ∈ ds, d.Base) → Fits (pre ++ ds) →
    ∀ (i : Nat) (d : Layout N), ds[i]? = some d → d.empty = false →
    (offsets p ds)[i]? = some (membersEnd (solid (pre ++ ds.take i)) 0 + padding (membersEnd (solid (pre ++ ds.take i)) 0) d.align) := by
  intro ds
  induction ds with
  | nil => intro pre p _ _ _ i d hi; simp at hi
  | cons x ds ih =>
    intro pre p h hb hf i d hi he
    cases i with
    | zero =>
      simp only [List.getElem?_cons_zero, Option.some.injEq] at hi
      subst hi
      simp only [offsets, List.getElem?_cons_zero, List.take_zero, List.append_nil]
      rw [h.offset (hb x (by simp)) hf he]
    | succ i =>
      simp only [List.getElem?_cons_succ] at hi
      have := ih (pre ++ [x]) (placeBase p x) (h.step (hb x (by simp)) hf) (fun d hd => hb d (by simp [hd])) (by simpa using hf) i d hi he
      simpa [offsets] using this

variable [DecidableEq T]

omit [DecidableEq T] in
theorem memberOffset_start [DecidableEq N] (d : Layout N) : memberOffset .start d = 0 := by
  rw [memberOffset, search_first _ _ _ _ _ (conflict_false (by simp [Progress.start]))]
  simp only [Progress.start, roundUp]
  rcases Nat.eq_zero_or_pos d.align with h | h
  · simp [h]
  · rw [Nat.zero_add, Nat.div_eq_of_lt (by omega), Nat.zero_mul]

omit [DecidableEq T] in
theorem baseOffset_begin [DecidableEq N] (d : Layout N) : baseOffset .start d = 0 := by
  have := memberOffset_start d
  simp only [baseOffset]
  rw [conflict_false (off := 0) (by simp [Progress.start])]
  rw [memberOffset] at this
  simp [this]

theorem valueAt_zero (tag : Nat) (p : Part T) (hp : p.layout.Proper) (hown : (.constGet tag p.ty, 0) ∉ p.layout.empties) : valueAt tag p = 0 := by
  obtain ⟨he, h1, h2, h3, h4⟩ := hp
  simp only [valueAt, memberOffset_start, Nat.add_zero]
  rw [classLayout_member _ p.layout h1 h2 h3,
    classLayout_member _ (⟨p.layout.size, p.layout.size, p.layout.align, false, p.layout.empties⟩ : Layout (Name T)) h1 h2 h3,
    classLayout_nil (Name.constGet tag p.ty)]
  have hfit : Fits ([⟨1, 1, 1, true, [(.constGet tag p.ty, 0)]⟩] ++ [(⟨p.layout.size, p.layout.size, p.layout.align, false, p.layout.empties⟩ : Layout (Name T))]) := by
    refine ⟨by simp, ?_⟩
    intro f hf d hd hde
    simp only [List.cons_append, List.nil_append, List.find?_cons, Bool.not_true, Bool.not_false, Option.some.injEq] at hf
    subst hf
    rcases List.mem_cons.1 hd with rfl | hd
    · constructor
      · intro n hn hn'
        simp only [List.mem_singleton, Prod.mk.injEq, and_true] at hn
        subst hn
        exact hown hn'
      · intro n hn hn'
        simp only [List.mem_singleton, Prod.mk.injEq, and_true] at hn'
        subst hn'
        exact hown hn
    · have hd := List.mem_singleton.1 hd
      subst hd
      simp at hde
  have hs := start_placed.step (pre := []) (d := (⟨1, 1, 1, true, [(.constGet tag p.ty, 0)]⟩ : Layout (Name T))) (.inl ⟨rfl, rfl, rfl, by simp⟩) hfit
  have := hs.offset (d := (⟨p.layout.size, p.layout.size, p.layout.align, false, p.layout.empties⟩ : Layout (Name T))) (rest := []) (.inr ⟨⟨rfl, h1, h2, h3, h4⟩, rfl⟩) hfit rfl
  rw [this]
  simp only [List.nil_append, solid, List.filter_cons, Bool.not_true, Bool.false_eq_true, if_false, List.filter_nil, List.map_nil, membersEnd, Nat.zero_add]
  exact padding_zero 0 _ (Nat.dvd_zero _)

/-- Elements of tuples as bases. -/
theorem elements_fit (parts : List (Part T)) (hp : ∀ p ∈ parts, p.layout.empty = true ∨ p.layout.Proper)
    (hown : ∀ (i : Nat) (p : Part T), parts[i]? = some p → (.constGet i p.ty, 0) ∉ p.layout.empties)
    (hclash : ∀ f, parts.find? (! ·.layout.empty) = some f → ∀ (i : Nat) (q : Part T), parts[i]? = some q → q.layout.empty = true →
      (.emptyElem i q.ty, 0) ∉ f.layout.empties) :
    let fs := parts.zipIdx.map fun p => elementLayout p.2 p.1
    (∀ d ∈ fs, d.Base) ∧ Fits fs ∧ ∀ k, solid (fs.take k) = solid ((parts.map (·.layout)).take k) := by
  intro fs
  have hfs : ∀ (i : Nat) (p : Part T), parts[i]? = some p → fs[i]? = some (elementLayout i p) := by
    intro i p hi
    simp [fs, List.getElem?_map, List.getElem?_zipIdx, hi]
  have hfs' : ∀ (i : Nat) (d : Layout (Name T)), fs[i]? = some d → ∃ p, parts[i]? = some p ∧ d = elementLayout i p := by
    intro i d hi
    have hil : i < parts.length := by have := (List.getElem?_eq_some_iff.1 hi).1; simpa [fs] using this
    have := hfs i parts[i] (by simp [hil])
    rw [hi, Option.some.injEq] at this
    exact ⟨parts[i], by simp [hil], this⟩
  have hel : ∀ (i : Nat) (p : Part T), parts[i]? = some p → _ := fun i p hi =>
    elementLayout_spec i p (hp p (List.mem_of_getElem? hi)) (fun _ => hown i p hi)
  have hb : ∀ d ∈ fs, d.Base := by
    intro d hd
    obtain ⟨i, hi⟩ := List.mem_iff_getElem?.1 hd
    obtain ⟨p, h1, rfl⟩ := hfs' i d hi
    exact (hel i p h1).1
  have hf : Fits fs := by
    refine ⟨?_, ?_⟩
    · rw [List.pairwise_filter, List.pairwise_iff_getElem]
      intro i j hi hj hij h1 h2 n hn hn'
      obtain ⟨p, hp1, hp2⟩ := hfs' i fs[i] (by simp [hi])
      obtain ⟨q, hq1, hq2⟩ := hfs' j fs[j] (by simp [hj])
      rw [hp2] at h1 hn
      rw [hq2] at h2 hn'
      rw [(hel i p hp1).2.2.1 h1] at hn
      rw [(hel j q hq1).2.2.1 h2] at hn'
      simp only [List.mem_singleton, Prod.mk.injEq, and_true] at hn hn'
      rw [hn] at hn'
      simp only [Name.emptyElem.injEq] at hn'
      omega
    · intro f hff d hd hde
      obtain ⟨i, p, g1, g2, g3, g4⟩ := find_elements parts 0 f hff
      rw [Nat.zero_add] at g3
      obtain ⟨j, hj⟩ := List.mem_iff_getElem?.1 hd
      obtain ⟨q, hq1, rfl⟩ := hfs' j d hj
      have hqe : q.layout.empty = true := by rw [← elementLayout_empty j]; exact hde
      have hnot : (.emptyElem j q.ty, 0) ∉ f.empties := by
        intro h
        rw [g3] at h
        rcases ((hel i p g1).2.2.2 (by rw [elementLayout_empty, g2])).2.2 _ h with h | h
        · simp at h
        · exact hclash p g4 j q hq1 hqe h
      constructor
      · intro n hn hn'
        rw [(hel j q hq1).2.2.1 hde] at hn
        simp only [List.mem_singleton, Prod.mk.injEq, and_true] at hn
        rw [hn] at hn'
        exact hnot hn'
      · intro n hn hn'
        rw [(hel j q hq1).2.2.1 hde] at hn'
        simp only [List.mem_singleton, Prod.mk.injEq, and_true] at hn'
        rw [hn'] at hn
        exact hnot hn
  refine ⟨hb, hf, fun k => ?_⟩
  have hz : ∀ (l : List (Part T)) (s k : Nat), (l.zipIdx s).take k = (l.take k).zipIdx s := by
    intro l
    induction l with
    | nil => intro s k; simp
    | cons x l ih => intro s k; cases k <;> simp [List.zipIdx_cons, ih]
  simp only [fs, ← List.map_take, hz]
  simp only [solid, List.filter_map, List.map_map]
  have key : ∀ (l : List (Part T)) (k : Nat), (∀ (i : Nat) p, l[i]? = some p → parts[k + i]? = some p) →
      ((l.zipIdx k).filter ((! ·.empty) ∘ fun p => elementLayout p.2 p.1)).map ((fun d => (d.size, d.align)) ∘ fun p => elementLayout p.2 p.1) =
        (l.filter ((! ·.empty) ∘ (·.layout))).map ((fun d => (d.size, d.align)) ∘ (·.layout)) := by
    intro l
    induction l with
    | nil => intro k _; rfl
    | cons x l ih =>
      intro k hk
      have ih := ih (k + 1) (fun i p hi => by have := hk (i + 1) p (by simpa using hi); rw [← this]; congr 1; omega)
      rw [List.zipIdx_cons, List.filter_cons, List.filter_cons]
      simp only [Function.comp_apply, elementLayout_empty]
      have hx := hel k x (by simpa using hk 0 x rfl)
      by_cases he : x.layout.empty = true
      · rw [if_neg (by simp [he]), if_neg (by simp [he])]
        exact ih
      · rw [Bool.not_eq_true] at he
        rw [if_pos (by simp [he]), if_pos (by simp [he])]
        simp only [List.map_cons, Function.comp_apply, List.cons.injEq]
        obtain ⟨h1, h2, -⟩ := hx.2.2.2 (by rw [elementLayout_empty, he])
        exact ⟨by rw [h1, h2], ih⟩
  exact key (parts.take k) 0 (fun i p hi => by
    have hil := (List.getElem?_eq_some_iff.1 hi).1
    rw [List.length_take] at hil
    rw [List.getElem?_take, if_pos (by omega)] at hi
    rw [Nat.zero_add]
    exact hi)

/-- A value stored in a struct of such members. -/
theorem structAt_solid (ds : List (Layout N)) (i : Nat) (d : Layout N) (hi : ds[i]? = some d) (he : d.empty = false) :
    Ms.structAt (ds.map Layout.foot) i = some (membersEnd (solid (ds.take i)) 0 + padding (membersEnd (solid (ds.take i)) 0) d.align) := by
  have h1 : (ds.map Layout.foot)[i]? = some (some (d.size, d.align)) := by simp [hi, Layout.foot, he]
  simp only [Ms.structAt, h1, ← List.map_take, foot_solid]

theorem structAt_empty (ds : List (Layout N)) (i : Nat) (d : Layout N) (hi : ds[i]? = some d) (he : d.empty = true) : Ms.structAt (ds.map Layout.foot) i = none := by
  have h1 : (ds.map Layout.foot)[i]? = some none := by simp [hi, Layout.foot, he]
  simp only [Ms.structAt, h1]

theorem structAt_none (ds : List (Layout N)) (i : Nat) (hi : ds[i]? = none) : Ms.structAt (ds.map Layout.foot) i = none := by
  have h1 : (ds.map Layout.foot)[i]? = none := by simpa using hi
  simp only [Ms.structAt, h1]

theorem storedAt_exact (parts : List (Part T)) (rest : List (Layout (Name T))) (hp : ∀ p ∈ parts, p.layout.empty = true ∨ p.layout.Proper)
    (hown : ∀ (i : Nat) (p : Part T), parts[i]? = some p → (.constGet i p.ty, 0) ∉ p.layout.empties)
    (hb : ∀ d ∈ (parts.zipIdx.map fun p => elementLayout p.2 p.1) ++ rest, d.Base) (hf : Fits ((parts.zipIdx.map fun p => elementLayout p.2 p.1) ++ rest))
    (hs : ∀ k, solid ((parts.zipIdx.map fun p => elementLayout p.2 p.1).take k) = solid ((parts.map (·.layout)).take k)) (i : Nat) :
    storedAt parts rest i = Ms.structAt ((parts.map (·.layout)).map Layout.foot) i := by
  cases hi : parts[i]? with
  | none =>
    rw [structAt_none _ _ (by simpa using hi)]
    simp [storedAt, hi]
  | some p =>
    have hil : i < parts.length := (List.getElem?_eq_some_iff.1 hi).1
    have hd : ((parts.zipIdx.map fun p => elementLayout p.2 p.1) ++ rest)[i]? = some (elementLayout i p) := by
      rw [List.getElem?_append_left (by simpa using hil)]
      simp [List.getElem?_map, List.getElem?_zipIdx, hi]
    cases he : p.layout.empty with
    | true =>
      rw [structAt_empty _ _ p.layout (by simp [hi]) he]
      simp only [storedAt, hi]
      split
      · rename_i h1 h2
        simp only [Option.some.injEq] at h1
        subst h1
        simp [he]
      · rfl
    | false =>
      have hpp := (hp p (List.mem_of_getElem? hi)).resolve_left (by simp [he])
      obtain ⟨-, h1, -, h3⟩ := elementLayout_spec i p (.inr hpp) (fun _ => hown i p hi)
      have hee : (elementLayout i p).empty = false := by rw [h1, he]
      have := offsets_exact _ [] .start start_placed hb (by simpa using hf) i _ hd hee
      rw [structAt_solid _ _ p.layout (by simp [hi]) he]
      rw [List.nil_append, List.take_append_of_le_length (by simp; omega), hs, (h3 hee).2.1] at this
      simp only [storedAt, hi, this, he, valueAt_zero i p hpp (hown i p hi), Nat.add_zero]
      simp

theorem tupleAt_exact (parts : List (Part T)) (hp : ∀ p ∈ parts, p.layout.empty = true ∨ p.layout.Proper)
    (hown : ∀ (i : Nat) (p : Part T), parts[i]? = some p → (.constGet i p.ty, 0) ∉ p.layout.empties)
    (hclash : ∀ f, parts.find? (! ·.layout.empty) = some f → ∀ (i : Nat) (q : Part T), parts[i]? = some q → q.layout.empty = true →
      (.emptyElem i q.ty, 0) ∉ f.layout.empties) (i : Nat) :
    tupleAt parts i = Ms.structAt ((parts.map (·.layout)).map Layout.foot) i := by
  obtain ⟨h1, h2, h3⟩ := elements_fit parts hp hown hclash
  have := storedAt_exact parts [] hp hown (by simpa using h1) (by simpa using h2) h3 i
  simp only [tupleAt, baseOffset_begin, Nat.zero_add, this]
  simp

theorem boundAt_exact (back : Bool) (f t : Part T) (hf : f.layout.empty = true ∨ f.layout.Proper)
    (ht : t.layout.empty = true ∨ t.layout.Proper) (hownf : (.constGet 0 f.ty, 0) ∉ f.layout.empties)
    (hownt : (.constGet 1 t.ty, 0) ∉ t.layout.empties)
    (hclash : ∀ d, [f, t].find? (! ·.layout.empty) = some d → (.generic back f.ty t.ty, 0) ∉ d.layout.empties ∧
      (f.layout.empty = true → (.emptyElem 0 f.ty, 0) ∉ d.layout.empties) ∧
      (t.layout.empty = true → (.emptyElem 1 t.ty, 0) ∉ d.layout.empties)) (i : Nat) :
    boundAt back f t i = Ms.structAt [f.layout.foot, t.layout.foot] i := by
  obtain ⟨f1, f2, f3, f4⟩ := elementLayout_spec 0 f hf (fun _ => hownf)
  obtain ⟨t1, t2, t3, t4⟩ := elementLayout_spec 1 t ht (fun _ => hownt)
  generalize hFE : elementLayout 0 f = fe at f1 f2 f3 f4
  generalize hTE : elementLayout 1 t = te at t1 t2 t3 t4
  have hg := classLayout_nil (Name.generic back f.ty t.ty)
  generalize hGE : classLayout (Name.generic back f.ty t.ty) [] [] = ge at hg
  have hb : ∀ d ∈ [fe, te, ge], d.Base := by
    intro d hd
    simp only [List.mem_cons, List.not_mem_nil, or_false] at hd
    rcases hd with rfl | rfl | rfl
    · exact f1
    · exact t1
    · rw [hg]; exact .inl ⟨rfl, rfl, rfl, by simp⟩
  -- names at offset 0 of an empty one
  have hz : ∀ d ∈ [fe, te, ge], d.empty = true → ∀ n, (n, 0) ∈ d.empties →
      (d = fe ∧ f.layout.empty = true ∧ n = .emptyElem 0 f.ty) ∨ (d = te ∧ t.layout.empty = true ∧ n = .emptyElem 1 t.ty) ∨
      (d = ge ∧ n = .generic back f.ty t.ty) := by
    intro d hd he n hn
    simp only [List.mem_cons, List.not_mem_nil, or_false] at hd
    rcases hd with rfl | rfl | rfl
    · rw [f3 he] at hn
      exact .inl ⟨rfl, by rw [← f2, he], by simpa using hn⟩
    · rw [t3 he] at hn
      exact .inr (.inl ⟨rfl, by rw [← t2, he], by simpa using hn⟩)
    · rw [hg] at hn
      exact .inr (.inr ⟨rfl, by simpa using hn⟩)
  -- the first one that is not empty
  have hfirst : ∀ x, [fe, te, ge].find? (! ·.empty) = some x → ∃ (tag : Nat) (y : Part T), [f, t].find? (! ·.layout.empty) = some y ∧
      ∀ n, (n, 0) ∈ x.empties → n = .constGet tag y.ty ∨ (n, 0) ∈ y.layout.empties := by
    intro x hx
    cases hfe : f.layout.empty
    · rw [hfe] at f2
      rw [List.find?_cons, f2] at hx
      simp only [Bool.not_false, Option.some.injEq] at hx
      subst hx
      exact ⟨0, f, by simp [hfe], (f4 f2).2.2⟩
    · rw [hfe] at f2
      rw [List.find?_cons, f2] at hx
      simp only [Bool.not_true] at hx
      cases hte : t.layout.empty
      · rw [hte] at t2
        rw [List.find?_cons, t2] at hx
        simp only [Bool.not_false, Option.some.injEq] at hx
        subst hx
        exact ⟨1, t, by simp [hfe, hte], (t4 t2).2.2⟩
      · rw [hte] at t2
        rw [List.find?_cons, t2, hg] at hx
        simp at hx
  have hfits : Fits [fe, te, ge] := by
    refine ⟨?_, ?_⟩
    · rw [List.pairwise_filter]
      refine List.Pairwise.cons ?_ (List.Pairwise.cons ?_ (List.Pairwise.cons (by simp) .nil))
      · intro d hd h1 h2 n hn hn'
        rw [f3 h1] at hn
        simp only [List.mem_singleton, Prod.mk.injEq, and_true] at hn
        subst hn
        simp only [List.mem_cons, List.not_mem_nil, or_false] at hd
        rcases hd with rfl | rfl
        · rw [t3 h2] at hn'; simp at hn'
        · rw [hg] at hn'; simp at hn'
      · intro d hd h1 h2 n hn hn'
        rw [t3 h1] at hn
        simp only [List.mem_singleton, Prod.mk.injEq, and_true] at hn
        subst hn
        rw [List.mem_singleton] at hd
        subst hd
        rw [hg] at hn'; simp at hn'
    · intro x hx d hd hde
      obtain ⟨tag, y, hy1, hy2⟩ := hfirst x hx
      obtain ⟨c1, c2, c3⟩ := hclash y hy1
      have key : ∀ n, (n, 0) ∈ d.empties → (n, 0) ∉ x.empties := by
        intro n hn hn'
        rcases hz d hd hde n hn with ⟨-, h1, rfl⟩ | ⟨-, h1, rfl⟩ | ⟨-, rfl⟩ <;> rcases hy2 _ hn' with h | h
        · simp at h
        · exact c2 h1 h
        · simp at h
        · exact c3 h1 h
        · simp at h
        · exact c1 h
      exact ⟨key, fun n hn hn' => key n hn' hn⟩
  have hs : ∀ k, solid (([f, t].zipIdx.map fun p => elementLayout p.2 p.1).take k) = solid (([f, t].map (·.layout)).take k) := by
    intro k
    have e0 : ([f, t].zipIdx.map fun p => elementLayout p.2 p.1) = [fe, te] := by simp [hFE, hTE]
    rw [e0]
    have hf0 : solid [fe] = solid [f.layout] := by
      cases h1 : f.layout.empty <;> rw [h1] at f2 <;> simp only [solid, List.filter_cons, f2, h1, Bool.not_true, Bool.not_false, Bool.false_eq_true, if_true, if_false, List.filter_nil,
        List.map_cons, List.map_nil]
      rw [(f4 f2).1, (f4 f2).2.1]
    have ht0 : solid [te] = solid [t.layout] := by
      cases h1 : t.layout.empty <;> rw [h1] at t2 <;> simp only [solid, List.filter_cons, t2, h1, Bool.not_true, Bool.not_false, Bool.false_eq_true, if_true, if_false, List.filter_nil,
        List.map_cons, List.map_nil]
      rw [(t4 t2).1, (t4 t2).2.1]
    have happ : ∀ (a b : Layout (Name T)), solid [a, b] = solid [a] ++ solid [b] := by
      intro a b
      rw [show [a, b] = [a] ++ [b] from rfl]
      simp only [solid, List.filter_append, List.map_append]
    rcases k with _ | _ | k
    · simp
    · simpa using hf0
    · simp only [List.map_cons, List.map_nil, List.take_succ_cons, List.take_nil]
      rw [happ, happ f.layout, hf0, ht0]
  have := storedAt_exact [f, t] [ge] (by
      intro p hp
      simp only [List.mem_cons, List.not_mem_nil, or_false] at hp
      rcases hp with rfl | rfl <;> assumption) (by
      intro i p hi
      match i, hi with
      | 0, hi => simp at hi; subst hi; exact hownf
      | 1, hi => simp at hi; subst hi; exact hownt
      | i + 2, hi => simp at hi) (by simpa [hFE, hTE] using hb) (by simpa [hFE, hTE] using hfits) hs i
  simp only [boundAt, hGE, baseOffset_begin, Nat.zero_add, this]
  simp

end Pigro.Lay
