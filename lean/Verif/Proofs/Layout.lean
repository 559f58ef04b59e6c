import Verif.Spec.Layout
/-!
# Lemmas about layout
-/
namespace Pigro.Lay
variable {T N : Type}

theorem roundUp_eq (n a : Nat) (ha : 0 < a) : roundUp n a = n + padding n a := by
  unfold roundUp padding
  have h1 := Nat.div_add_mod n a
  have h2 := Nat.mod_lt n ha
  by_cases h : n % a = 0
  · rw [h] at h1
    rw [h, Nat.sub_zero, Nat.mod_self]
    have : (n + a - 1) / a = n / a := by
      rw [Nat.div_eq_of_lt_le]
      · rw [Nat.mul_comm]; omega
      · rw [Nat.succ_mul, Nat.mul_comm]; omega
    rw [this, Nat.mul_comm]; omega
  · rw [Nat.mod_eq_of_lt (by omega : a - n % a < a)]
    have : (n + a - 1) / a = n / a + 1 := by
      rw [Nat.div_eq_of_lt_le]
      · rw [Nat.succ_mul, Nat.mul_comm]; omega
      · rw [Nat.succ_mul, Nat.succ_mul, Nat.mul_comm]; omega
    rw [this, Nat.succ_mul, Nat.mul_comm]; omega

theorem padding_zero (n a : Nat) (h : a ∣ n) : padding n a = 0 := by
  unfold padding
  rw [Nat.mod_eq_zero_of_dvd h]; simp

theorem dvd_pad (n a : Nat) (ha : 0 < a) : a ∣ n + padding n a := by
  rw [← roundUp_eq n a ha]
  exact Nat.dvd_mul_left _ _

theorem roundUp_dvd (n a : Nat) (ha : 0 < a) (h : a ∣ n) : roundUp n a = n := by
  rw [roundUp_eq n a ha, padding_zero n a h, Nat.add_zero]

theorem le_roundUp (n a : Nat) (ha : 0 < a) : n ≤ roundUp n a := by
  rw [roundUp_eq n a ha]; omega

theorem search_first [DecidableEq N] (placed empties : List (N × Nat)) (align fuel off : Nat)
    (h : conflict placed empties off = false) : search placed empties align fuel off = off := by
  cases fuel <;> simp [search, h]

theorem conflict_false [DecidableEq N] {placed empties : List (N × Nat)} {off : Nat}
    (h : ∀ n o, (n, o) ∈ empties → (n, o + off) ∉ placed) : conflict placed empties off = false := by
  rw [Bool.eq_false_iff]
  intro hc
  simp only [conflict, List.any_eq_true, Bool.and_eq_true, decide_eq_true_eq] at hc
  obtain ⟨⟨n, o⟩, he, ⟨n', o'⟩, hp, h1, h2⟩ := hc
  simp only at h1 h2
  rw [h1, h2] at hp
  exact h _ _ he hp

/-- A class that can be a base here: empty with all its empty subobjects at offset 0, or not empty and without tail padding. -/
def Layout.Base (d : Layout N) : Prop :=
  (d.empty = true ∧ d.size = 1 ∧ d.align = 1 ∧ ∀ e ∈ d.empties, e.2 = 0) ∨ (d.Proper ∧ d.nvsize = d.size)

/-- Nothing of the same type at offset 0. -/
def ZeroApart (d d' : Layout N) : Prop := ∀ n, (n, 0) ∈ d.empties → (n, 0) ∉ d'.empties

/-- The bases of empty type can all be at offset 0. -/
def Fits (ds : List (Layout N)) : Prop :=
  (ds.filter (·.empty)).Pairwise ZeroApart ∧
  ∀ f, ds.find? (! ·.empty) = some f → ∀ d ∈ ds, d.empty = true → ZeroApart d f ∧ ZeroApart f d

theorem membersEnd_append (ms ns : List (Nat × Nat)) : ∀ off, membersEnd (ms ++ ns) off = membersEnd ns (membersEnd ms off) := by
  induction ms with
  | nil => intro off; rfl
  | cons m ms ih => intro off; obtain ⟨s, a⟩ := m; simp [membersEnd, ih]

theorem strictest_pos (ms : List (Nat × Nat)) : ∀ a, 0 < a → 0 < ms.foldl (fun a m => max a m.2) a := by
  induction ms with
  | nil => intro a h; exact h
  | cons m ms ih => intro a h; exact ih _ (Nat.lt_of_lt_of_le h (Nat.le_max_left _ _))

theorem le_membersEnd (ms : List (Nat × Nat)) : ∀ off, off ≤ membersEnd ms off := by
  induction ms with
  | nil => intro off; exact Nat.le_refl _
  | cons m ms ih =>
    intro off
    obtain ⟨s, a⟩ := m
    exact Nat.le_trans (by omega) (ih _)

/-- What has been placed after the bases `pre`. -/
structure Placed [DecidableEq N] (pre : List (Layout N)) (p : Progress N) : Prop where
  dsize : p.dsize = membersEnd (solid pre) 0
  size : p.size = max p.dsize (if pre.any (·.empty) then 1 else 0)
  align : p.align = strictest (solid pre)
  placed : ∀ n o, (n, o) ∈ p.placed →
    (o = 0 ∧ ∃ d ∈ pre, d.empty = true ∧ (n, 0) ∈ d.empties) ∨
    (o < p.dsize ∧ (o = 0 → ∃ f, pre.find? (! ·.empty) = some f ∧ (n, 0) ∈ f.empties))
  some : (∃ d ∈ pre, d.empty = false) → 0 < p.dsize

theorem solid_snoc (pre : List (Layout N)) (d : Layout N) :
    solid (pre ++ [d]) = solid pre ++ (if d.empty then [] else [(d.size, d.align)]) := by
  cases h : d.empty <;> simp [solid, List.filter_append, h]

theorem Placed.step [DecidableEq N] {pre rest : List (Layout N)} {d : Layout N} {p : Progress N} (h : Placed pre p)
    (hb : d.Base) (hf : Fits (pre ++ d :: rest)) : Placed (pre ++ [d]) (placeBase p d) := by
  obtain ⟨f1, f2⟩ := hf
  have hne : 0 < p.align := by rw [h.align]; exact strictest_pos _ 1 (by omega)
  rcases hb with ⟨he, hs, ha, hz⟩ | ⟨⟨he, hs, ha, hd, hz⟩, hnv⟩
  · have hc : conflict p.placed d.empties 0 = false := by
      apply conflict_false
      intro n o hno hp
      have hz0 := hz _ hno
      simp only at hz0
      subst hz0
      rcases h.placed n _ hp with ⟨-, d', hd', he', hn'⟩ | ⟨-, hq⟩
      · rw [List.filter_append, List.pairwise_append] at f1
        exact f1.2.2 d' (List.mem_filter.2 ⟨hd', he'⟩) d (List.mem_filter.2 ⟨by simp, he⟩) n hn' hno
      · obtain ⟨f, hf', hn'⟩ := hq rfl
        exact (f2 f (by rw [List.find?_append, hf']; rfl) d (by simp) he).1 n hno hn'
    have hp : placeBase p d = ⟨max p.size 1, p.dsize, max p.align d.align, p.placed ++ d.empties.map fun e => (e.1, e.2 + 0)⟩ := by
      simp only [placeBase, he, hc, hs, Bool.false_eq_true, if_true, if_false, Nat.zero_add]
    rw [hp]
    refine ⟨?_, ?_, ?_, ?_, ?_⟩
    · rw [solid_snoc, he]; simpa using h.dsize
    · simp only [List.any_append, List.any_cons, he, List.any_nil, Bool.or_false, Bool.or_true, if_true]
      rw [h.size]
      split <;> omega
    · rw [solid_snoc, he, ha, h.align]
      simp only [if_true, List.append_nil]
      have := h.align
      omega
    · intro n o hno
      rcases List.mem_append.1 hno with hno | hno
      · rcases h.placed n o hno with ⟨h1, d', h2, h3⟩ | ⟨h1, h2⟩
        · exact .inl ⟨h1, d', by simp [h2], h3⟩
        · refine .inr ⟨h1, fun h0 => ?_⟩
          obtain ⟨f, h3, h4⟩ := h2 h0
          exact ⟨f, by rw [List.find?_append, h3]; rfl, h4⟩
      · obtain ⟨⟨n', o'⟩, h1, h2⟩ := List.mem_map.1 hno
        simp only [Prod.mk.injEq, Nat.add_zero] at h2
        obtain ⟨rfl, rfl⟩ := h2
        have hz0 := hz _ h1
        simp only at hz0
        subst hz0
        exact .inl ⟨rfl, d, by simp, he, h1⟩
    · rintro ⟨d', h1, h2⟩
      rcases List.mem_append.1 h1 with h1 | h1
      · exact h.some ⟨d', h1, h2⟩
      · rw [List.mem_singleton] at h1
        rw [h1, he] at h2; simp at h2
  · have hge := le_roundUp p.dsize d.align ha
    have hc : conflict p.placed d.empties (roundUp p.dsize d.align) = false := by
      apply conflict_false
      intro n o hno hp
      rcases h.placed n _ hp with ⟨h0, d', hd', he', hn'⟩ | ⟨h1, -⟩
      · have h00 : o = 0 := by omega
        have h01 : p.dsize = 0 := by omega
        subst h00
        have hfirst : pre.find? (! ·.empty) = none := by
          rw [List.find?_eq_none]
          intro x hx hxe
          have := h.some ⟨x, hx, by simpa using hxe⟩
          omega
        exact (f2 d (by rw [List.find?_append, hfirst]; simp [he]) d' (by simp [hd']) he').1 n hn' hno
      · omega
    have hp : placeBase p d = ⟨max p.size (roundUp p.dsize d.align + d.size), roundUp p.dsize d.align + d.size, max p.align d.align,
        p.placed ++ d.empties.map fun e => (e.1, e.2 + roundUp p.dsize d.align)⟩ := by
      simp only [placeBase, he, hnv, search_first _ _ _ _ _ hc, Bool.false_eq_true, if_false]
    rw [hp]
    have hru := roundUp_eq p.dsize d.align ha
    refine ⟨?_, ?_, ?_, ?_, ?_⟩
    · rw [solid_snoc, he, membersEnd_append, ← h.dsize]
      simp only [Bool.false_eq_true, if_false, membersEnd]
      omega
    · simp only [List.any_append, List.any_cons, he, List.any_nil, Bool.or_false]
      rw [h.size]
      split <;> omega
    · rw [solid_snoc, he, h.align]
      simp [strictest, List.foldl_append]
    · intro n o hno
      rcases List.mem_append.1 hno with hno | hno
      · rcases h.placed n o hno with ⟨h1, d', h2, h3⟩ | ⟨h1, h2⟩
        · exact .inl ⟨h1, d', by simp [h2], h3⟩
        · refine .inr ⟨by simp only; omega, fun h0 => ?_⟩
          obtain ⟨f, h3, h4⟩ := h2 h0
          exact ⟨f, by rw [List.find?_append, h3]; rfl, h4⟩
      · obtain ⟨⟨n', o'⟩, h1, h2⟩ := List.mem_map.1 hno
        simp only [Prod.mk.injEq] at h2
        obtain ⟨rfl, rfl⟩ := h2
        have hz0 := hz _ h1
        simp only at hz0
        refine .inr ⟨by simp only; omega, fun h0 => ?_⟩
        have h00 : o' = 0 := by omega
        have h01 : p.dsize = 0 := by omega
        subst h00
        have hfirst : pre.find? (! ·.empty) = none := by
          rw [List.find?_eq_none]
          intro x hx hxe
          have := h.some ⟨x, hx, by simpa using hxe⟩
          omega
        exact ⟨d, by rw [List.find?_append, hfirst]; simp [he], h1⟩
    · intro _
      simp only; omega

theorem Placed.all [DecidableEq N] (rest : List (Layout N)) : ∀ (pre : List (Layout N)) (p : Progress N), Placed pre p →
    (∀ d ∈ rest, d.Base) → Fits (pre ++ rest) → Placed (pre ++ rest) (rest.foldl placeBase p) := by
  induction rest with
  | nil => intro pre p h _ _; simpa using h
  | cons d rest ih =>
    intro pre p h hb hf
    have := ih (pre ++ [d]) (placeBase p d) (h.step (hb d (by simp)) hf) (fun d' hd' => hb d' (by simp [hd'])) (by simpa using hf)
    simpa using this

/-- A class whose only base has such a layout has the same one. -/
def Layout.Chain (d : Layout N) : Prop :=
  0 < d.align ∧ 0 < d.nvsize ∧ d.size = roundUp d.nvsize d.align ∧ (d.empty = true → d.size = 1 ∧ d.align = 1)

theorem solid_empty (ds : List (Layout N)) : solid ds = [] ↔ ds.all (·.empty) = true := by
  simp [solid, List.filter_eq_nil_iff]

/-- A class with bases only. -/
theorem classLayout_bases [DecidableEq N] (name : N) (ds : List (Layout N)) (hb : ∀ d ∈ ds, d.Base) (hf : Fits ds) :
    let c := classLayout name ds []
    c.Chain ∧ c.nvsize = max (membersEnd (solid ds) 0) 1 ∧ c.size = structSize (solid ds) ∧ c.align = strictest (solid ds) ∧ c.empty = ds.all (·.empty) ∧
    (∀ e ∈ c.empties, e.2 < c.size) ∧
    ∀ n, (n, 0) ∈ c.empties → (n = name ∧ c.empty = true) ∨ (∃ d ∈ ds, d.empty = true ∧ (n, 0) ∈ d.empties) ∨
      ∃ f, ds.find? (! ·.empty) = some f ∧ (n, 0) ∈ f.empties := by
  have h := Placed.all ds [] ⟨0, 0, 1, []⟩ ⟨rfl, rfl, rfl, by simp, by simp⟩ hb hf
  rw [List.nil_append] at h
  intro c
  have hc : c = classLayout name ds [] := rfl
  simp only [classLayout, List.foldl_nil, List.isEmpty_nil, Bool.true_and] at hc
  generalize ds.foldl placeBase ⟨0, 0, 1, []⟩ = p at h hc
  have hal : 0 < p.align := by rw [h.align]; exact strictest_pos _ 1 (by omega)
  have hsz : max p.size 1 = max p.dsize 1 := by
    rw [h.size]; split <;> omega
  rw [hsz] at hc
  have hsize : c.size = structSize (solid ds) := by
    rw [hc, structSize]
    simp only
    by_cases he : solid ds = []
    · rw [if_pos he]
      have h1 := h.dsize
      rw [he] at h1
      have h2 := h.align
      rw [he] at h2
      rw [h1, h2]
      rfl
    · rw [if_neg he, ← h.dsize, ← h.align]
      have : 0 < p.dsize := by
        apply h.some
        rw [solid_empty] at he
        simpa using he
      rw [Nat.max_eq_left (by omega), roundUp_eq _ _ hal]
  have hempty : c.empty = ds.all (·.empty) := by rw [hc]
  refine ⟨?_, by rw [hc, ← h.dsize], hsize, ?_, hempty, ?_, ?_⟩
  · rw [hc]
    refine ⟨hal, by simp only; omega, rfl, ?_⟩
    intro hall
    simp only at hall
    have he := (solid_empty ds).2 hall
    have h1 := h.dsize
    rw [he] at h1
    have h2 := h.align
    rw [he] at h2
    simp only
    rw [h1, h2]
    exact ⟨rfl, rfl⟩
  · rw [hc]; exact h.align
  · intro e he
    have hle := le_roundUp (max p.dsize 1) p.align hal
    rw [hc] at he ⊢
    simp only at he ⊢
    have hpl : ∀ e ∈ p.placed, e.2 < roundUp (max p.dsize 1) p.align := by
      intro e he
      rcases h.placed e.1 e.2 he with ⟨h1, -⟩ | ⟨h1, -⟩ <;> omega
    split at he
    · rcases List.mem_cons.1 he with rfl | he
      · simp only; omega
      · exact hpl e he
    · exact hpl e he
  · intro n hn
    have hpl : (n, 0) ∈ p.placed → (∃ d ∈ ds, d.empty = true ∧ (n, 0) ∈ d.empties) ∨
        ∃ f, ds.find? (! ·.empty) = some f ∧ (n, 0) ∈ f.empties := by
      intro hn
      rcases h.placed n 0 hn with ⟨-, h1⟩ | ⟨-, h1⟩
      · exact .inl h1
      · exact .inr (h1 rfl)
    rw [hempty]
    rw [hc] at hn
    simp only at hn
    split at hn
    · rename_i hall
      rcases List.mem_cons.1 hn with hn | hn
      · simp only [Prod.mk.injEq, and_true] at hn
        exact .inl ⟨hn, hall⟩
      · exact .inr (hpl hn)
    · exact .inr (hpl hn)

/-- A class with one base. -/
theorem classLayout_single [DecidableEq N] (name : N) (d : Layout N) (h : d.Chain) :
    let c := classLayout name [d] []
    c.Chain ∧ c.size = d.size ∧ c.align = d.align ∧ c.empty = d.empty ∧
    c.empties = if d.empty then (name, 0) :: d.empties else d.empties := by
  obtain ⟨h1, h2, h3, h4⟩ := h
  intro c
  have hc : c = classLayout name [d] [] := rfl
  have hcf : ∀ off, conflict ([] : List (N × Nat)) d.empties off = false := fun off => conflict_false (by simp)
  have hr : roundUp 0 d.align = 0 := roundUp_dvd 0 _ h1 (Nat.dvd_zero _)
  have hmap : (d.empties.map fun e => (e.1, e.2 + 0)) = d.empties := by simp
  cases he : d.empty
  · simp only [classLayout, List.foldl_nil, List.isEmpty_nil, Bool.true_and, List.foldl_cons, placeBase, he, Bool.false_eq_true,
      if_false, search_first _ _ _ _ _ (hcf _), hr, List.nil_append, List.all_cons, List.all_nil, Bool.and_true, Nat.zero_add] at hc
    rw [Nat.max_eq_right (by omega : 0 ≤ d.nvsize), Nat.max_eq_left (by omega : 1 ≤ d.nvsize), Nat.max_eq_right (by omega : 1 ≤ d.align),
      hmap] at hc
    rw [hc]
    exact ⟨⟨h1, h2, rfl, by simp⟩, h3.symm, rfl, rfl, by simp⟩
  · obtain ⟨h5, h6⟩ := h4 he
    simp only [classLayout, List.foldl_nil, List.isEmpty_nil, List.foldl_cons, placeBase, he, Bool.false_eq_true,
      if_true, if_false, hcf, List.nil_append, List.all_cons, List.all_nil, Bool.and_true, Nat.zero_add, h5, h6, hmap] at hc
    rw [hc]
    refine ⟨⟨by simp, by simp, rfl, fun _ => ⟨rfl, rfl⟩⟩, ?_, ?_, rfl, rfl⟩
    · rw [h5]; rfl
    · rw [h6]; rfl

theorem classLayout_single_nv [DecidableEq N] (name : N) (d : Layout N) (h : d.Chain) :
    (classLayout name [d] []).nvsize = d.nvsize := by
  obtain ⟨h1, h2, h3, h4⟩ := h
  have hcf : ∀ off, conflict ([] : List (N × Nat)) d.empties off = false := fun off => conflict_false (by simp)
  have hr : roundUp 0 d.align = 0 := roundUp_dvd 0 _ h1 (Nat.dvd_zero _)
  cases he : d.empty
  · simp only [classLayout, List.foldl_nil, List.foldl_cons, placeBase, he, Bool.false_eq_true,
      if_false, search_first _ _ _ _ _ (hcf _), hr, Nat.zero_add]
    omega
  · obtain ⟨h5, h6⟩ := h4 he
    simp only [classLayout, List.foldl_nil, List.foldl_cons, placeBase, he, Bool.false_eq_true, if_true, if_false, hcf, Nat.zero_add, h5]
    have := le_roundUp d.nvsize d.align h1
    omega

/-- A class with one data member. -/
theorem classLayout_member [DecidableEq N] (name : N) (d : Layout N) (h1 : 0 < d.size) (h2 : 0 < d.align) (h3 : d.align ∣ d.size) :
    classLayout name [] [d] = ⟨d.size, d.size, d.align, false, d.empties⟩ := by
  have hcf : ∀ off, conflict ([] : List (N × Nat)) d.empties off = false := fun off => conflict_false (by simp)
  have hr : roundUp 0 d.align = 0 := roundUp_dvd 0 _ h2 (Nat.dvd_zero _)
  have hmap : (d.empties.map fun e => (e.1, e.2 + 0)) = d.empties := by simp
  simp only [classLayout, List.foldl_nil, List.isEmpty_cons, Bool.false_and, List.foldl_cons, placeMember, Bool.false_eq_true,
      if_false, search_first _ _ _ _ _ (hcf _), hr, List.nil_append, Nat.zero_add]
  rw [Nat.max_eq_right (by omega : 0 ≤ d.size), Nat.max_eq_left (by omega : 1 ≤ d.size), Nat.max_eq_right (by omega : 1 ≤ d.align), hmap,
    roundUp_dvd _ _ h2 h3]

/-- An empty class without bases. -/
theorem classLayout_nil [DecidableEq N] (name : N) : classLayout name [] [] = ⟨1, 1, 1, true, [(name, 0)]⟩ := by
  simp [classLayout, roundUp]

/-- The class of an element. -/
theorem elementLayout_spec [DecidableEq T] (tag : Nat) (p : Part T) (hp : p.layout.empty = true ∨ p.layout.Proper)
    (hown : p.layout.empty = false → (.constGet tag p.ty, 0) ∉ p.layout.empties) :
    let c := elementLayout tag p
    c.Base ∧ c.empty = p.layout.empty ∧
    (c.empty = true → c.empties = [(.emptyElem tag p.ty, 0)]) ∧
    (c.empty = false → c.size = p.layout.size ∧ c.align = p.layout.align ∧
      ∀ n, (n, 0) ∈ c.empties → n = .constGet tag p.ty ∨ (n, 0) ∈ p.layout.empties) := by
  intro c
  have hc : c = elementLayout tag p := rfl
  cases he : p.layout.empty
  · obtain ⟨-, h1, h2, h3, h4⟩ : p.layout.Proper := hp.resolve_left (by simp [he])
    rw [elementLayout, he, classLayout_member _ p.layout h1 h2 h3,
      classLayout_member _ (⟨p.layout.size, p.layout.size, p.layout.align, false, p.layout.empties⟩ : Layout (Name T)) h1 h2 h3,
      classLayout_nil (Name.constGet tag p.ty)] at hc
    simp only [Bool.false_eq_true, if_false] at hc
    have hb := classLayout_bases (.stored tag p.ty) [⟨1, 1, 1, true, [(.constGet tag p.ty, 0)]⟩,
      ⟨p.layout.size, p.layout.size, p.layout.align, false, p.layout.empties⟩] (by
        intro d hd
        rcases List.mem_cons.1 hd with rfl | hd
        · exact .inl ⟨rfl, rfl, rfl, by simp⟩
        · rw [List.mem_singleton] at hd
          subst hd
          exact .inr ⟨⟨rfl, h1, h2, h3, h4⟩, rfl⟩) (by
        refine ⟨by simp, ?_⟩
        intro f hf d hd hde
        simp only [List.find?_cons, Bool.not_true, Bool.not_false, Option.some.injEq] at hf
        subst hf
        rcases List.mem_cons.1 hd with rfl | hd
        · constructor
          · intro n hn hn'
            simp only [List.mem_singleton, Prod.mk.injEq, and_true] at hn
            subst hn
            exact hown he hn'
          · intro n hn hn'
            simp only [List.mem_singleton, Prod.mk.injEq, and_true] at hn'
            subst hn'
            exact hown he hn
        · rw [List.mem_singleton] at hd
          subst hd
          simp at hde)
    simp only at hb
    rw [← hc] at hb
    obtain ⟨b1, b0, b2, b3, b4, b5, b6⟩ := hb
    have hss : solid [⟨1, 1, 1, true, [((.constGet tag p.ty : Name T), 0)]⟩,
      ⟨p.layout.size, p.layout.size, p.layout.align, false, p.layout.empties⟩] = [(p.layout.size, p.layout.align)] := rfl
    rw [hss] at b0 b2 b3
    have b3' : c.align = p.layout.align := by
      rw [b3]; simp only [strictest, List.foldl_cons, List.foldl_nil]; omega
    have hsz : c.size = p.layout.size := by
      rw [b2]
      simp only [structSize, membersEnd, strictest, List.foldl_cons, List.foldl_nil, reduceCtorEq, if_false, Nat.zero_add]
      rw [padding_zero 0 _ (Nat.dvd_zero _), Nat.zero_add, Nat.max_eq_right (by omega : 1 ≤ p.layout.align), padding_zero _ _ h3]
      rfl
    have hemp : c.empty = false := by rw [b4]; rfl
    have hnv : c.nvsize = c.size := by
      rw [b0, hsz]
      simp only [membersEnd, Nat.zero_add]
      rw [padding_zero 0 _ (Nat.dvd_zero _)]
      omega
    refine ⟨.inr ⟨⟨hemp, by omega, by omega, by rw [b3', hsz]; exact h3, b5⟩, hnv⟩, hemp, by simp [hemp], fun _ => ⟨hsz, b3', ?_⟩⟩
    intro n hn
    rcases b6 n hn with ⟨-, h⟩ | ⟨d, hd, hd1, hd2⟩ | ⟨f, hf, hn'⟩
    · rw [hemp] at h; simp at h
    · rcases List.mem_cons.1 hd with rfl | hd
      · simp only [List.mem_singleton, Prod.mk.injEq, and_true] at hd2
        exact .inl hd2
      · rw [List.mem_singleton] at hd
        subst hd
        simp at hd1
    · simp only [List.find?_cons, Bool.not_true, Bool.not_false, Option.some.injEq] at hf
      subst hf
      exact .inr hn'
  · rw [elementLayout, he, classLayout_nil] at hc
    simp only [if_true] at hc
    rw [hc]
    exact ⟨.inl ⟨rfl, rfl, rfl, by simp⟩, rfl, by simp, by simp⟩

end Pigro.Lay
