import Verif.Model.FirstLayout
import Verif.Spec.FirstLayout
import Verif.Props.LazyLayout
/-!
# Proofs: sizes in the first design
-/
namespace Pigro.Lay
variable {U N : Type}

/-- Bytes, 0 for nothing. -/
def Foot.bytes : Foot → Nat
  | none => 0
  | some x => x.1

/-- A search never goes back. -/
theorem le_search [DecidableEq N] (placed empties : List (N × Nat)) (align : Nat) : ∀ fuel off, off ≤ search placed empties align fuel off
  | 0, off => Nat.le_refl _
  | fuel + 1, off => by
    rw [search]
    split
    · exact Nat.le_trans (Nat.le_add_right _ _) (le_search placed empties align fuel _)
    · exact Nat.le_refl _

theorem placeMember_size [DecidableEq N] (p : Progress N) (d : Layout N) (h : 0 < d.align) :
    p.dsize + d.size ≤ (placeMember p d).dsize ∧ (placeMember p d).dsize ≤ (placeMember p d).size := by
  simp only [placeMember]
  have h1 := le_search p.placed d.empties d.align (attempts p.placed) (roundUp p.dsize d.align)
  have h2 := le_roundUp p.dsize d.align h
  omega

theorem members_size [DecidableEq N] (ds : List (Layout N)) : ∀ (p : Progress N), (∀ d ∈ ds, 0 < d.align) → p.dsize ≤ p.size → 0 < p.align →
    p.dsize + (ds.map (·.size)).sum ≤ (ds.foldl placeMember p).size ∧ 0 < (ds.foldl placeMember p).align := by
  induction ds with
  | nil => intro p _ h h2; simpa using ⟨h, h2⟩
  | cons d ds ih =>
    intro p ha h h2
    obtain ⟨h3, h4⟩ := placeMember_size p d (ha d (by simp))
    have := ih (placeMember p d) (fun d hd => ha d (by simp [hd])) h4 (by simp only [placeMember]; omega)
    simp only [List.map_cons, List.sum_cons, List.foldl_cons]
    exact ⟨by omega, this.2⟩

/-- A class is not smaller than its members together, in whatever order. -/
theorem classLayout_members [DecidableEq N] (name : N) (ds : List (Layout N)) (h : ∀ d ∈ ds, 0 < d.align) :
    (ds.map (·.size)).sum ≤ (classLayout name [] ds).size ∧ 0 < (classLayout name [] ds).align ∧ 0 < (classLayout name [] ds).size := by
  obtain ⟨h1, h2⟩ := members_size ds ⟨0, 0, 1, []⟩ h (Nat.le_refl _) (by simp)
  simp only [classLayout, List.foldl_nil]
  have h3 := le_roundUp (max (ds.foldl placeMember ⟨0, 0, 1, []⟩).size 1) _ h2
  simp only [Nat.zero_add] at h1
  exact ⟨by omega, h2, by omega⟩

variable {a : Nat}

theorem Aligned.end (ms : List (Nat × Nat)) (h : ∀ x ∈ ms, x.2 = a ∧ a ∣ x.1) : ∀ off, a ∣ off → membersEnd ms off = off + (ms.map (·.1)).sum ∧
    a ∣ membersEnd ms off := by
  induction ms with
  | nil => intro off ho; exact ⟨by simp [membersEnd], ho⟩
  | cons m ms ih =>
    intro off ho
    obtain ⟨s, b⟩ := m
    obtain ⟨rfl, h2⟩ := h (s, b) (by simp)
    have := ih (fun x hx => h x (by simp [hx])) (off + s) (Nat.dvd_add ho h2)
    simp only [membersEnd, padding_zero off b ho, Nat.add_zero, List.map_cons, List.sum_cons]
    exact ⟨by omega, this.2⟩

theorem Aligned.strict (ms : List (Nat × Nat)) (h : ∀ x ∈ ms, x.2 = a) : ∀ b, b ≤ a → (ms = [] → b = a) → ms.foldl (fun c m => max c m.2) b = a := by
  induction ms with
  | nil => intro b _ h2; simpa using h2 rfl
  | cons m ms ih =>
    intro b hb _
    have := h m (by simp)
    simp only [List.foldl_cons]
    exact ih (fun x hx => h x (by simp [hx])) _ (by omega) (fun _ => by omega)

theorem filterMap_bytes (ms : List Foot) : ((ms.filterMap id).map (·.1)).sum = (ms.map Foot.bytes).sum := by
  induction ms with
  | nil => rfl
  | cons m ms ih => cases m <;> simp [Foot.bytes, ih]

/-- A struct of such members needs no padding. -/
theorem Aligned.structOf (ha : 0 < a) (ms : List Foot) (h : ∀ m ∈ ms, Foot.Aligned a m) :
    Foot.Aligned a (structOf ms) ∧ (Lay.structOf ms).bytes = (ms.map Foot.bytes).sum := by
  have hsum : ((ms.filterMap id).map (·.1)).sum = (ms.map Foot.bytes).sum := by
    exact filterMap_bytes ms
  have hall : ∀ x ∈ ms.filterMap id, x.2 = a ∧ a ∣ x.1 := by
    intro x hx
    simp only [List.mem_filterMap, id] at hx
    obtain ⟨m, hm, rfl⟩ := hx
    exact h _ hm x rfl
  simp only [Lay.structOf]
  split
  · rename_i he
    rw [he] at hsum
    exact ⟨(by intro x hx; cases hx), by simpa [Foot.bytes] using hsum⟩
  · rename_i he
    obtain ⟨h1, h2⟩ := Aligned.end _ hall 0 (Nat.dvd_zero _)
    have h3 : strictest (ms.filterMap id) = a := Aligned.strict _ (fun x hx => (hall x hx).1) 1 (by omega) (fun h => (he h).elim)
    rw [Nat.zero_add] at h1
    have h4 : structSize (ms.filterMap id) = (ms.map Foot.bytes).sum := by
      rw [structSize, if_neg he, h3, padding_zero _ _ h2, Nat.add_zero, h1, hsum]
    refine ⟨?_, by simp [Foot.bytes, h4]⟩
    rintro x hx
    cases hx
    exact ⟨h3, by rw [h4, ← hsum, ← h1]; exact h2⟩

theorem bytes_le (d : Layout N) : d.foot.bytes ≤ d.size := by
  simp only [Layout.foot]
  split <;> simp [Foot.bytes]

variable [DecidableEq U]

theorem Types.Plain.sizes {Γ : Types U} (h : Γ.Plain) (res : Option U) :
    0 < (Γ.cache res).align ∧ (cacheFoot (fun u => (Γ.optional u).foot) res).bytes ≤ (Γ.cache res).size := by
  cases res with
  | none =>
    have := classLayout_members (.user .optionalRegularVoid : Name (LTy U)) [scalar 1] (by simp [scalar])
    simp only [List.map_cons, List.map_nil, List.sum_cons, List.sum_nil, scalar, Nat.add_zero] at this
    exact ⟨this.2.1, this.1⟩
  | some u => exact ⟨(h.optional u).2.2.1, bytes_le _⟩

omit [DecidableEq U] in
theorem cacheFoot_aligned {Γ : Types U} (hg : Γ.Aligned a) (res : Option U) (hv : a = 1 ∨ res ≠ none) :
    (cacheFoot (fun u => (Γ.optional u).foot) res).Aligned a := by
  cases res with
  | none =>
    obtain rfl := hv.resolve_right (fun h => h rfl)
    intro x hx
    cases hx
    exact ⟨rfl, Nat.dvd_refl _⟩
  | some u => exact (hg u).2.2

mutual
theorem foot_first {Γ : Types U} (h : Γ.Plain) (ha : 0 < a) (hg : Γ.Aligned a) (dc : List (LTree U) → Lt U) (hdc : ∀ l, 0 < (dc l).align) :
    ∀ t : LTree U, t.noFunctions → (a = 1 ∨ t.noVoid) →
      (LTree.foot (fun u => (Γ.layout u).foot) (fun u => (Γ.optional u).foot) (some (4, 4)) t).Aligned a ∧
      (LTree.foot (fun u => (Γ.layout u).foot) (fun u => (Γ.optional u).foot) (some (4, 4)) t).bytes + t.argsCaches (fun l => (dc l).size) ≤ (firstLayout Γ dc t).size ∧
      0 < (firstLayout Γ dc t).align
  | .value v, _, _ => by
    have h1 := classLayout_members (.user .nil : Name (LTy U)) [Γ.layout v] (by simpa using (hg v).1)
    have h2 := bytes_le (Γ.layout v)
    simp only [List.map_cons, List.map_nil, List.sum_cons, List.sum_nil] at h1
    refine ⟨(hg v).2.1, ?_, h1.2.1⟩
    simp only [LTree.foot, LTree.argsCaches, firstLayout]
    omega
  | .lazy f res deps, hf, hv => by
    obtain ⟨h1, h2, h3⟩ := foots_first h ha hg dc hdc deps hf (hv.imp id (·.2))
    obtain ⟨h4, h5⟩ := h.sizes res
    have h6 := cacheFoot_aligned hg res (hv.imp id (·.1))
    have h7 := Aligned.structOf ha ((Γ.layout f).foot :: LTree.foots (fun u => (Γ.layout u).foot) (fun u => (Γ.optional u).foot) (some (4, 4)) deps) (by
      intro m hm
      rcases List.mem_cons.1 hm with rfl | hm
      · exact (hg f).2.1
      · exact h1 m hm)
    have h8 := Aligned.structOf ha [cacheFoot (fun u => (Γ.optional u).foot) res,
      structOf ((Γ.layout f).foot :: LTree.foots (fun u => (Γ.layout u).foot) (fun u => (Γ.optional u).foot) (some (4, 4)) deps)] (by
      intro m hm
      simp only [List.mem_cons, List.not_mem_nil, or_false] at hm
      rcases hm with rfl | rfl
      · exact h6
      · exact h7.1)
    have h9 := classLayout_members (.user .nil : Name (LTy U)) (firstLayouts Γ dc deps ++ [Γ.cache res, dc deps, Γ.layout f]) (by
      intro d hd
      simp only [List.mem_append, List.mem_cons, List.not_mem_nil, or_false] at hd
      rcases hd with hd | rfl | rfl | rfl
      · exact h3 d hd
      · exact h4
      · exact hdc deps
      · exact (hg f).1)
    have h10 := bytes_le (Γ.layout f)
    refine ⟨h8.1, ?_, h9.2.1⟩
    simp only [LTree.foot, LTree.argsCaches, firstLayout]
    rw [h8.2]
    simp only [List.map_cons, List.map_nil, List.sum_cons, List.sum_nil, h7.2, List.map_append, List.sum_append] at h9 ⊢
    have h11 := Nat.le_trans (Nat.add_le_add_right h2 _) h9.1
    omega
theorem foots_first {Γ : Types U} (h : Γ.Plain) (ha : 0 < a) (hg : Γ.Aligned a) (dc : List (LTree U) → Lt U) (hdc : ∀ l, 0 < (dc l).align) :
    ∀ ts : List (LTree U), LTree.allNoFunctions ts → (a = 1 ∨ LTree.allNoVoid ts) →
      (∀ m ∈ LTree.foots (fun u => (Γ.layout u).foot) (fun u => (Γ.optional u).foot) (some (4, 4)) ts, Foot.Aligned a m) ∧
      ((LTree.foots (fun u => (Γ.layout u).foot) (fun u => (Γ.optional u).foot) (some (4, 4)) ts).map Foot.bytes).sum +
        LTree.allArgsCaches (fun l => (dc l).size) ts ≤ ((firstLayouts Γ dc ts).map (·.size)).sum ∧
      ∀ d ∈ firstLayouts Γ dc ts, 0 < d.align
  | [], _, _ => by simp [LTree.foots, firstLayouts, LTree.allArgsCaches]
  | t :: ts, hf, hv => by
    obtain ⟨h1, h2, h3⟩ := foot_first h ha hg dc hdc t hf.1 (hv.imp id (·.1))
    obtain ⟨h4, h5, h6⟩ := foots_first h ha hg dc hdc ts hf.2 (hv.imp id (·.2))
    refine ⟨?_, ?_, ?_⟩
    · intro m hm
      rcases List.mem_cons.1 hm with rfl | hm
      · exact h1
      · exact h4 m hm
    · simp only [LTree.foots, LTree.allArgsCaches, firstLayouts, List.map_cons, List.sum_cons]
      omega
    · intro d hd
      rcases List.mem_cons.1 hd with rfl | hd
      · exact h3
      · exact h6 d hd
end

/-! Layouts of repeated members. -/

theorem place_empties [DecidableEq N] (x : N) : ∀ (n k : Nat) (pl : List (N × Nat)), (∀ e ∈ pl, e.2 < k) →
    ∃ pl' : List (N × Nat), (∀ e ∈ pl', e.2 < k + n) ∧
      (List.replicate n (⟨1, 1, 1, true, [(x, 0)]⟩ : Layout N)).foldl placeMember ⟨k, k, 1, pl⟩ = ⟨k + n, k + n, 1, pl'⟩
  | 0, k, pl, h => ⟨pl, h, rfl⟩
  | n + 1, k, pl, h => by
    have hc : conflict pl [(x, 0)] k = false := conflict_false (by
      intro m o hm hp
      simp only [List.mem_singleton, Prod.mk.injEq] at hm
      have := h _ hp
      simp only [hm.2] at this
      omega)
    have hr : roundUp k 1 = k := by simp [roundUp]
    obtain ⟨pl', h1, h2⟩ := place_empties x n (k + 1) (pl ++ [(x, k)]) (by
      intro e he
      rcases List.mem_append.1 he with he | he
      · have := h e he; omega
      · simp only [List.mem_singleton] at he
        rw [he]; simp)
    refine ⟨pl', by rwa [show k + (n + 1) = k + 1 + n by omega], ?_⟩
    rw [List.replicate_succ, List.foldl_cons, placeMember]
    simp only [hr, search_first _ _ _ _ _ hc, List.map_cons, List.map_nil, Nat.zero_add, Nat.max_self]
    rw [show max k (k + 1) = k + 1 by omega, h2, show k + 1 + n = k + (n + 1) by omega]

theorem place_words [DecidableEq N] : ∀ (n k a : Nat), 
    (List.replicate n (scalar 4 : Layout N)).foldl placeMember ⟨4 * k, 4 * k, a, []⟩ =
      ⟨4 * (k + n), 4 * (k + n), if n = 0 then a else max a 4, []⟩
  | 0, k, a => by simp
  | n + 1, k, a => by
    have hr : roundUp (4 * k) 4 = 4 * k := by simp only [roundUp]; omega
    have hc : conflict ([] : List (N × Nat)) [] (4 * k) = false := conflict_false (by simp)
    rw [List.replicate_succ, List.foldl_cons, placeMember]
    simp only [scalar, hr, search_first _ _ _ _ _ hc, List.map_nil, List.append_nil]
    rw [show max (4 * k) (4 * k + 4) = 4 * (k + 1) by omega, show 4 * k + 4 = 4 * (k + 1) by omega]
    have := place_words n (k + 1) (max a 4)
    simp only [scalar] at this
    rw [this, show k + 1 + n = k + (n + 1) by omega]
    simp

end Pigro.Lay
