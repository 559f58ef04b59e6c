import Verif.Proofs.LayoutSpec
/-!
# No two subobjects of the same empty class type have the same address
-/
namespace Pigro.Lay
variable {T N : Type}

theorem lt_attempts (placed : List (N × Nat)) : ∀ p ∈ placed, p.2 < attempts placed := by
  have key : ∀ (l : List (N × Nat)) (n : Nat), n ≤ l.foldl (fun n p => max n p.2) n ∧ ∀ p ∈ l, p.2 ≤ l.foldl (fun n p => max n p.2) n := by
    intro l
    induction l with
    | nil => intro n; simp
    | cons a l ih =>
      intro n
      obtain ⟨h1, h2⟩ := ih (max n a.2)
      simp only [List.foldl_cons]
      refine ⟨by omega, fun p hp => ?_⟩
      rcases List.mem_cons.1 hp with rfl | hp
      · omega
      · exact h2 p hp
  intro p hp
  have := (key placed 0).2 p hp
  unfold attempts
  omega

theorem not_conflict [DecidableEq N] {placed empties : List (N × Nat)} {off : Nat} :
    conflict placed empties off = false ↔ ∀ n o, (n, o) ∈ empties → (n, o + off) ∉ placed := by
  refine ⟨fun h n o he hp => ?_, conflict_false⟩
  rw [Bool.eq_false_iff] at h
  apply h
  simp only [conflict, List.any_eq_true, Bool.and_eq_true, decide_eq_true_eq]
  exact ⟨_, he, _, hp, rfl, rfl⟩

/-- The search ends at an offset without conflict. -/
theorem search_free [DecidableEq N] (placed empties : List (N × Nat)) (align : Nat) (ha : 0 < align) (off : Nat) :
    conflict placed empties (search placed empties align (attempts placed) off) = false := by
  have key : ∀ fuel off, attempts placed ≤ fuel + off → conflict placed empties (search placed empties align fuel off) = false := by
    intro fuel
    induction fuel with
    | zero =>
      intro off h
      rw [not_conflict]
      intro n o _ hp
      have := lt_attempts placed _ hp
      simp only [search] at this
      omega
    | succ fuel ih =>
      intro off h
      rw [search]
      split
      · exact ih _ (by omega)
      · simp_all
  exact key _ _ (by omega)

/-- Distinct, and aligned somehow. -/
def Layout.Distinct (d : Layout N) : Prop := d.empties.Nodup ∧ 0 < d.align

theorem shifted_nodup (l : List (N × Nat)) (h : l.Nodup) (off : Nat) : (l.map fun e => (e.1, e.2 + off)).Nodup := by
  unfold List.Nodup at *
  rw [List.pairwise_map]
  refine h.imp fun {a b} hab heq => hab ?_
  obtain ⟨a1, a2⟩ := a
  obtain ⟨b1, b2⟩ := b
  simp only [Prod.mk.injEq] at heq ⊢
  exact ⟨heq.1, by omega⟩

theorem placed_nodup [DecidableEq N] (placed empties : List (N × Nat)) (hp : placed.Nodup) (he : empties.Nodup) (off : Nat)
    (hc : conflict placed empties off = false) : (placed ++ empties.map fun e => (e.1, e.2 + off)).Nodup := by
  rw [List.nodup_append]
  refine ⟨hp, shifted_nodup _ he _, ?_⟩
  rintro a ha b hb rfl
  obtain ⟨⟨n, o⟩, hno, rfl⟩ := List.mem_map.1 hb
  exact not_conflict.1 hc n o hno ha

theorem placeBase_distinct [DecidableEq N] (p : Progress N) (d : Layout N) (hp : p.placed.Nodup ∧ 0 < p.align) (hd : d.Distinct) :
    (placeBase p d).placed.Nodup ∧ 0 < (placeBase p d).align := by
  obtain ⟨h1, h2⟩ := hp
  obtain ⟨h3, h4⟩ := hd
  have hs := search_free p.placed d.empties d.align h4 (roundUp p.dsize d.align)
  unfold placeBase
  simp only
  split
  · refine ⟨placed_nodup _ _ h1 h3 _ ?_, by simp only; omega⟩
    split
    · exact hs
    · simp_all
  · exact ⟨placed_nodup _ _ h1 h3 _ hs, by simp only; omega⟩

theorem placeMember_distinct [DecidableEq N] (p : Progress N) (d : Layout N) (hp : p.placed.Nodup ∧ 0 < p.align) (hd : d.Distinct) :
    (placeMember p d).placed.Nodup ∧ 0 < (placeMember p d).align := by
  have hs := search_free p.placed d.empties d.align hd.2 (roundUp p.dsize d.align)
  exact ⟨placed_nodup _ _ hp.1 hd.1 _ hs, by simp only [placeMember]; omega⟩

theorem foldl_distinct (place : Progress N → Layout N → Progress N)
    (hplace : ∀ p d, (p.placed.Nodup ∧ 0 < p.align) → d.Distinct → (place p d).placed.Nodup ∧ 0 < (place p d).align)
    (ds : List (Layout N)) : ∀ p, (p.placed.Nodup ∧ 0 < p.align) → (∀ d ∈ ds, d.Distinct) →
      (ds.foldl place p).placed.Nodup ∧ 0 < (ds.foldl place p).align := by
  induction ds with
  | nil => intro p hp _; exact hp
  | cons d ds ih => intro p hp hd; exact ih _ (hplace p d hp (hd d (by simp))) fun d' h => hd d' (by simp [h])

/-- What is placed stems from the bases. -/
theorem placed_names [DecidableEq N] (ds : List (Layout N)) : ∀ (p : Progress N) (e : N × Nat), e ∈ (ds.foldl placeBase p).placed →
    e ∈ p.placed ∨ ∃ d ∈ ds, ∃ e' ∈ d.empties, e'.1 = e.1 := by
  induction ds with
  | nil => intro p e he; exact .inl he
  | cons d ds ih =>
    intro p e he
    rcases ih _ e he with h | ⟨d', hd', h⟩
    · unfold placeBase at h
      simp only at h
      split at h <;>
      · rcases List.mem_append.1 h with h | h
        · exact .inl h
        · obtain ⟨e', he', rfl⟩ := List.mem_map.1 h
          exact .inr ⟨d, by simp, e', he', rfl⟩
    · exact .inr ⟨d', by simp [hd'], h⟩

theorem classLayout_distinct [DecidableEq N] (name : N) (bases members : List (Layout N)) (hb : ∀ d ∈ bases, d.Distinct)
    (hm : ∀ d ∈ members, d.Distinct)
    (hname : (classLayout name bases members).empty = true → ∀ d ∈ bases, ∀ e ∈ d.empties, e.1 ≠ name) :
    (classLayout name bases members).Distinct := by
  have h1 := foldl_distinct placeBase placeBase_distinct bases ⟨0, 0, 1, []⟩ (by simp) hb
  have h2 := foldl_distinct placeMember placeMember_distinct members _ h1 hm
  refine ⟨?_, h2.2⟩
  simp only [classLayout] at hname ⊢
  split
  · rename_i he
    have hn := hname he
    have hmem : members = [] := by
      rw [Bool.and_eq_true, List.isEmpty_iff] at he
      exact he.1
    subst hmem
    rw [List.nodup_cons]
    refine ⟨fun h => ?_, h2.1⟩
    rcases placed_names bases _ _ h with h | ⟨d, hd, e, he', h⟩
    · simp at h
    · exact hn d hd e he' h
  · exact h2.1

/-- The names in an empty class. -/
theorem classLayout_from_bases [DecidableEq N] (name : N) (bases : List (Layout N)) (e : N × Nat) (h : e ∈ (classLayout name bases []).empties) :
    e.1 = name ∨ ∃ d ∈ bases, ∃ e' ∈ d.empties, e'.1 = e.1 := by
  simp only [classLayout, List.foldl_nil] at h
  split at h
  · rcases List.mem_cons.1 h with rfl | h
    · exact .inl rfl
    · exact .inr ((placed_names bases _ e h).resolve_left (by simp))
  · exact .inr ((placed_names bases _ e h).resolve_left (by simp))

theorem elementLayout_distinct [DecidableEq T] (tag : Nat) (p : Part T) (h : p.layout.Distinct) : (elementLayout tag p).Distinct := by
  unfold elementLayout
  split
  · exact classLayout_distinct _ _ _ (by simp) (by simp) (by simp)
  · refine classLayout_distinct _ _ _ ?_ (by simp) (by simp [classLayout])
    intro d hd
    simp only [List.mem_cons, List.not_mem_nil, or_false] at hd
    rcases hd with rfl | rfl
    · exact classLayout_distinct _ _ _ (by simp) (by simp) (by simp)
    · refine classLayout_distinct _ _ _ (by simp) ?_ (by simp)
      intro d hd
      rw [List.mem_singleton] at hd
      subst hd
      refine classLayout_distinct _ _ _ (by simp) ?_ (by simp)
      intro d hd
      rw [List.mem_singleton] at hd
      subst hd
      exact h

/-- An empty element consists of a single closure. -/
theorem elementLayout_empty_names [DecidableEq T] (tag : Nat) (p : Part T) (h : (elementLayout tag p).empty = true) :
    ∀ e ∈ (elementLayout tag p).empties, e.1 = .emptyElem tag p.ty := by
  unfold elementLayout at *
  split at h
  · intro e he
    rw [if_pos (by assumption), classLayout_nil] at he
    simp only [List.mem_singleton] at he
    rw [he]
  · simp [classLayout] at h

theorem mem_partition (fs : List (Layout N)) (d : Layout N) : d ∈ TL.partitionT (·.empty) fs ↔ d ∈ fs := by
  rw [partition_spec]
  simp only [List.mem_append, List.mem_filter, Bool.not_eq_true']
  cases d.empty <;> simp

/-- Names allowed in the bases of the `overload`. -/
theorem overloadLayout_distinct [DecidableEq T] (msvc : Bool) (b : Option Bool) (ts : List T) (fs : List (Layout (Name T)))
    (hd : ∀ d ∈ fs, d.Distinct)
    (hn : (∀ d ∈ fs, d.empty = true) → ∀ d ∈ fs, ∀ e ∈ d.empties, e.1 ≠ .overload b ts ∧ e.1 ≠ .overloadImpl b ts) :
    (overloadLayout msvc b ts fs).Distinct ∧
    ∀ e ∈ (overloadLayout msvc b ts fs).empties, e.1 = .overload b ts ∨ e.1 = .overloadImpl b ts ∨ ∃ d ∈ fs, ∃ e' ∈ d.empties, e'.1 = e.1 := by
  cases msvc
  · simp only [overloadLayout, Bool.false_eq_true, if_false]
    constructor
    · refine classLayout_distinct _ _ _ hd (by simp) ?_
      intro he d hd' e he'
      simp only [classLayout, List.isEmpty_nil, Bool.true_and, List.all_eq_true] at he
      exact (hn he d hd' e he').1
    · intro e he
      rcases classLayout_from_bases _ _ e he with h | h
      · exact .inl h
      · exact .inr (.inr h)
  · simp only [overloadLayout, if_true]
    have hnames : ∀ e ∈ (classLayout (.overloadImpl b ts) (TL.partitionT (·.empty) fs) []).empties,
        e.1 = .overloadImpl b ts ∨ ∃ d ∈ fs, ∃ e' ∈ d.empties, e'.1 = e.1 := by
      intro e he
      rcases classLayout_from_bases _ _ e he with h | ⟨d, hd, h⟩
      · exact .inl h
      · exact .inr ⟨d, (mem_partition fs d).1 hd, h⟩
    constructor
    · refine classLayout_distinct _ _ _ ?_ (by simp) ?_
      · intro d hd'
        rw [List.mem_singleton] at hd'
        subst hd'
        refine classLayout_distinct _ _ _ (fun d h => hd d ((mem_partition fs d).1 h)) (by simp) ?_
        intro he d hd' e he'
        simp only [classLayout, List.isEmpty_nil, Bool.true_and, List.all_eq_true] at he
        exact (hn (fun d h => he d ((mem_partition fs d).2 h)) d ((mem_partition fs d).1 hd') e he').2
      · intro he d hd' e he'
        rw [List.mem_singleton] at hd'
        subst hd'
        simp only [classLayout, List.isEmpty_nil, Bool.true_and, List.all_cons, List.all_nil, Bool.and_true, List.all_eq_true] at he
        rcases hnames e he' with h | ⟨d, hd', e', he'', h⟩
        · rw [h]; simp
        · rw [← h]
          exact (hn (fun d h => he d ((mem_partition fs d).2 h)) d hd' e' he'').1
    · intro e he
      rcases classLayout_from_bases _ _ e he with h | ⟨d, hd', e', he', h⟩
      · exact .inl h
      · rw [List.mem_singleton] at hd'
        subst hd'
        rcases hnames e' he' with h' | ⟨d, hd', e'', he'', h'⟩
        · exact .inr (.inl (by rw [← h, h']))
        · exact .inr (.inr ⟨d, hd', e'', he'', by rw [h', h]⟩)

end Pigro.Lay
