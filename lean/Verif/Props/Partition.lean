import Verif.Model.Partition
/-!
# C38, C39: type lists

Specification by membership, order and multiplicity (`List.Sublist`, `List.Perm`), not by `filter`.
-/
namespace Pigro.TL
variable {T : Type}

theorem concat_eq (ls : List (List T)) : concat ls = ls.flatten := by
  induction ls with
  | nil => rfl
  | cons l ls ih => simp [concat, plus, ih]

theorem concat_filterOne (ts : List T) (p : Predicate T) :
    concat (ts.map fun t => filterOne t p) = ts.filter p.call := by
  rw [concat_eq]
  induction ts with
  | nil => rfl
  | cons t ts ih =>
    rw [List.map_cons, List.flatten_cons, ih]
    cases h : p.call t <;> simp [filterOne, h]

theorem filterIf_eq (ts : List T) (p : Predicate T) : filterIf ts p = ts.filter p.call := by
  rcases ts with _ | ⟨t, _ | ⟨u, ts⟩⟩
  · rfl
  · cases h : p.call t <;> simp [filterIf, filterOne, h]
  · exact concat_filterOne _ p

theorem partition_eq (ts : List T) (p : Predicate T) :
    partition ts p = filterIf ts p ++ filterIf ts p.not := by
  rw [filterIf_eq, filterIf_eq, ← concat_filterOne, ← concat_filterOne]
  simp only [partition, concat_eq, List.flatten_append]
  rfl

theorem not_call (p : Predicate T) (t : T) : p.not.call t = !p.call t := by
  cases h : p.isNegated <;> simp [Predicate.not, Predicate.call, h]

/-! ### C39 -/

/-- **C39.** `filter_if(list, p)` is a subsequence of the list that contains exactly the occurrences of types
satisfying `p`: together with `filter_if(list, !p)` it has every type of the list with its multiplicity,
all types in it satisfy `p`, and none in the other does. -/
theorem C39_filter_if (ts : List T) (p : Predicate T) :
    (filterIf ts p).Sublist ts ∧ (filterIf ts p.not).Sublist ts ∧
    (∀ t ∈ filterIf ts p, p.call t = true) ∧ (∀ t ∈ filterIf ts p.not, p.call t = false) ∧
    (filterIf ts p ++ filterIf ts p.not).Perm ts := by
  have hn : p.not.call = fun t => !p.call t := funext (not_call p)
  simp only [filterIf_eq, hn]
  refine ⟨List.filter_sublist, List.filter_sublist, ?_, ?_, List.filter_append_perm _ _⟩
  · intro t ht; exact (List.mem_filter.1 ht).2
  · intro t ht; simpa using (List.mem_filter.1 ht).2

/-- **C39**, uniqueness: these conditions determine `filter_if`. -/
theorem C39_filter_if_unique (ts us vs : List T) (p : Predicate T) (hu : us.Sublist ts)
    (hpu : ∀ t ∈ us, p.call t = true) (hpv : ∀ t ∈ vs, p.call t = false)
    (hperm : (us ++ vs).Perm ts) : filterIf ts p = us := by
  rw [filterIf_eq]
  have h1 : us.filter p.call = us := List.filter_eq_self.2 hpu
  have h2 : vs.filter p.call = [] := List.filter_eq_nil_iff.2 (by simpa using hpv)
  have h3 := (hperm.filter p.call).length_eq
  have h4 : us.Sublist (ts.filter p.call) := by
    rw [← h1]; exact hu.filter _
  have := h4.eq_of_length (by rw [← h3]; simp [h1, h2])
  exact this.symm

/-- **C39**: negation is the complement and `!!p` is `p`; an un-negated predicate is its trait. -/
theorem C39_negation (p : Predicate T) (trait : T → Bool) (t : T) :
    p.not.not = p ∧ (p.not.call t = true ↔ ¬ p.call t = true) ∧
    (predicate trait).call t = trait t ∧ (predicate trait).not.call t = !trait t := by
  refine ⟨?_, ?_, rfl, rfl⟩
  · cases p; simp [Predicate.not]
  · rw [not_call]; simp

/-- **C39**: `concat` is concatenation: the type at any position is found in the lists laid end to end. -/
theorem C39_concat (l : List T) (ls ks : List (List T)) :
    concat ([] : List (List T)) = [] ∧ concat (ls ++ l :: ks) = concat ls ++ l ++ concat ks := by
  simp [concat_eq]

example : filterIf ["a", "bb", "c", "dd", "a"] (predicate fun s => s.length == 1) = ["a", "c", "a"] :=
  C39_filter_if_unique _ _ ["bb", "dd"] _ (by decide) (by decide) (by decide) (by decide)

example : concat [[1, 2], [], [3]] = [1, 2, 3] := rfl

/-! ### C38 -/

/-- **C38.** `partition(list, p)` is a permutation of the list; it consists of a first part, all satisfying
`p`, and a second part, none satisfying `p`; each part is a subsequence of the list. -/
theorem C38_stable_partition (ts : List T) (p : Predicate T) :
    ∃ yes no, partition ts p = yes ++ no ∧ (partition ts p).Perm ts ∧
      (∀ t ∈ yes, p.call t = true) ∧ (∀ t ∈ no, p.call t = false) ∧
      yes.Sublist ts ∧ no.Sublist ts := by
  obtain ⟨h1, h2, h3, h4, h5⟩ := C39_filter_if ts p
  have hp := partition_eq ts p
  exact ⟨_, _, hp, hp ▸ h5, h3, h4, h1, h2⟩

/-- **C38**, uniqueness: there is only one such list. -/
theorem C38_stable_partition_unique (ts yes no : List T) (p : Predicate T)
    (hperm : (yes ++ no).Perm ts) (hy : ∀ t ∈ yes, p.call t = true)
    (hn : ∀ t ∈ no, p.call t = false) (sy : yes.Sublist ts) (sn : no.Sublist ts) :
    partition ts p = yes ++ no := by
  have hp := partition_eq ts p
  rw [hp, C39_filter_if_unique ts yes no p sy hy hn hperm,
    C39_filter_if_unique ts no yes p.not sn (by intro t ht; rw [not_call, hn t ht]; rfl)
      (by intro t ht; rw [not_call, hy t ht]; rfl) (List.perm_append_comm.trans hperm)]

/-- Empty types first, as in the MSVC `overload`: a mixed list with a repeated type. -/
example : partitionT (fun s : String => s.length == 1) ["bb", "a", "dd", "c", "bb"] =
    ["a", "c", "bb", "dd", "bb"] :=
  C38_stable_partition_unique _ ["a", "c"] _ _ (by decide) (by decide) (by decide) (by decide)
    (by decide)

end Pigro.TL
