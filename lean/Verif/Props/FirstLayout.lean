import Verif.Proofs.FirstLayout
/-!
# C76: the memory footprint compared with the first design

"we reduced the memory footprint considerably: each lazy function now needs to store only the cache for its own calculated result" (comparisons.md:101).
-/
namespace Pigro.Lay
section
variable {U : Type} [DecidableEq U]

/-- C76 in full: for all types and trees, `sizeof` of a lazy function of the library is at most that of the one of the first design. True if no plain function
is used as a dependency and no padding is needed, whatever the representation of `dependencies_cache`; the difference is at least what the caches of the dependencies
of all the lazy functions in the tree take. What is missing are the other cases, see `C76_functions` and `C76_padding`. -/
theorem C76_smaller_partial {Γ : Types U} (h : Γ.Plain) {a : Nat} (ha : 0 < a) (hg : Γ.Aligned a) (dc : List (LTree U) → Lt U) (hdc : ∀ l, 0 < (dc l).align)
    (msvc : Bool) (f : U) (res : Option U) (deps : List (LTree U)) (hf : (LTree.lazy f res deps).noFunctions) (hv : a = 1 ∨ (LTree.lazy f res deps).noVoid) :
    (depPart Γ msvc (.lazy f res deps)).layout.size + (LTree.lazy f res deps).argsCaches (fun l => (dc l).size) ≤ (firstLayout Γ dc (.lazy f res deps)).size := by
  obtain ⟨-, h1, h2⟩ := C55_size h msvc f res deps
  have h3 := (foot_first h ha hg dc hdc (.lazy f res deps) hf hv).2.1
  rw [h2]
  rw [← h1] at h3 ⊢
  exact h3

/-- The dependencies' caches are never free: they take what all the values of the dependencies take, and a flag; never less than 2 bytes. -/
theorem C76_caches_take_space {Γ : Types U} (hg : ∀ u, 0 < (Γ.layout u).align) (deps : List (LTree U)) :
    (deps.map (LTree.valueSize fun u => (Γ.layout u).size)).sum + 1 ≤ (argsCache Γ deps).size ∧ 2 ≤ (argsCache Γ deps).size ∧ 0 < (argsCache Γ deps).align := by
  have hs : ∀ t : LTree U, (t.valueLayout Γ).size = t.valueSize (fun u => (Γ.layout u).size) ∧ 0 < (t.valueLayout Γ).align
    | .value v => ⟨rfl, hg v⟩
    | .function _ res => ⟨rfl, hg res⟩
    | .lazy _ (some res) _ => ⟨rfl, hg res⟩
    | .lazy _ none _ => by simp [LTree.valueLayout, LTree.valueSize, classLayout_nil]
  have h1 := classLayout_members (.user .nil : Name (LTy U)) (deps.map (LTree.valueLayout Γ)) (by
    intro d hd
    obtain ⟨t, -, rfl⟩ := List.mem_map.1 hd
    exact (hs t).2)
  have h3 : (deps.map (LTree.valueLayout Γ)).map (·.size) = deps.map (LTree.valueSize fun u => (Γ.layout u).size) := by
    rw [List.map_map]
    exact List.map_congr_left fun t _ => (hs t).1
  have h2 := classLayout_members (.user .nil : Name (LTy U)) [stdTupleOf (deps.map (LTree.valueLayout Γ)), scalar 1] (by
    simp only [List.mem_cons, List.not_mem_nil, or_false]
    rintro d (rfl | rfl)
    · exact h1.2.1
    · simp [scalar])
  rw [← h3]
  simp only [List.map_cons, List.map_nil, List.sum_cons, List.sum_nil, scalar, stdTupleOf] at h2
  have h4 := Nat.le_trans (Nat.add_le_add_right h1.1 _) h2.1
  have h5 := Nat.le_trans (Nat.add_le_add_right (Nat.succ_le_of_lt h1.2.2) _) h2.1
  exact ⟨h4, h5, h2.2.1⟩

/-- So the lazy function of the library is strictly smaller. -/
theorem C76_strictly_partial {Γ : Types U} (h : Γ.Plain) {a : Nat} (ha : 0 < a) (hg : Γ.Aligned a)
    (msvc : Bool) (f : U) (res : Option U) (deps : List (LTree U)) (hf : (LTree.lazy f res deps).noFunctions) (hv : a = 1 ∨ (LTree.lazy f res deps).noVoid) :
    (depPart Γ msvc (.lazy f res deps)).layout.size + 2 ≤ (firstLayout Γ (argsCache Γ) (.lazy f res deps)).size := by
  have h1 := C76_smaller_partial h ha hg (argsCache Γ) (fun l => (C76_caches_take_space (fun u => (hg u).1) l).2.2) msvc f res deps hf hv
  have h2 := (C76_caches_take_space (fun u => (hg u).1) deps).2.1
  simp only [LTree.argsCaches] at h1
  omega

end

/-! Types of alignment 4: those of `exTypes` but for `std::string` (here of 32 bytes, with alignment 4) and the reference (here of 4 bytes). -/

def words : Types ExU where
  layout
    | .lamRef => classLayout (.user (.user .lamRef)) [] [scalar 4]
    | .string => ⟨32, 32, 4, false, []⟩
    | u => exTypes.layout u
  optional
    | .lam0 => ⟨8, 8, 4, false, []⟩
    | .lamRef => ⟨8, 8, 4, false, []⟩
    | .string => ⟨36, 36, 4, false, []⟩
    | u => exTypes.optional u

theorem words_plain : words.Plain where
  layout u := by
    cases u
    · right; refine ⟨rfl, ?_, ?_, ?_, ?_⟩ <;> decide
    · left; rfl
    · right; refine ⟨rfl, ?_, ?_, ?_, ?_⟩ <;> decide
    · right; refine ⟨rfl, ?_, ?_, ?_, ?_⟩ <;> decide
    · right; refine ⟨rfl, ?_, ?_, ?_, ?_⟩ <;> decide
  optional u := by cases u <;> refine ⟨rfl, ?_, ?_, ?_, ?_⟩ <;> decide
  names u := by
    cases u
    · intro e he; simp [words, exTypes, scalar] at he
    · intro e he
      simp only [words, exTypes, List.append_nil, classLayout_nil, List.mem_singleton] at he
      exact ⟨.lam0, by rw [he]⟩
    · intro e he
      have : classLayout (.user (.user .lamInt)) [] [(scalar 4 : Lt ExU)] = ⟨4, 4, 4, false, []⟩ := by decide
      simp [words, exTypes, this] at he
    · intro e he
      have : classLayout (.user (.user .lamRef)) [] [(scalar 4 : Lt ExU)] = ⟨4, 4, 4, false, []⟩ := by decide
      simp [words, this] at he
    · intro e he; simp [words] at he

theorem words_aligned : words.Aligned 4 := by
  have key : ∀ d : Lt ExU, (d.empty = true ∨ d.align = 4 ∧ 4 ∣ d.size) → d.foot.Aligned 4 := by
    rintro d hd x hx
    simp only [Layout.foot] at hx
    split at hx
    · cases hx
    · rename_i he
      cases hx
      exact hd.resolve_left he
  intro u
  refine ⟨?_, key _ ?_, key _ ?_⟩ <;> cases u <;> decide

/-- A lazy function of three dependencies, of which two are lazy: 36 + 4 + 32 + 12 + 16 = 100 bytes; in the first design there are 44, 2
and 8 more for the caches of the dependencies, and 2 of padding. -/
example : let t : LTree ExU := .lazy .lamInt (some .string) [.value .string, .lazy .lamRef (some .int) [], .lazy .lamInt (some .int) [.value .int]]
    (depPart words false t).layout.size = 100 ∧ (firstLayout words (argsCache words) t).size = 156 ∧
    t.argsCaches (fun l => (argsCache words l).size) = 54 ∧
    (depPart words false t).layout.size + 54 ≤ (firstLayout words (argsCache words) t).size := by
  intro t
  refine ⟨(C55_size words_plain false _ _ _).2.2, ?_, ?_, ?_⟩
  · decide +kernel
  · decide +kernel
  · exact C76_smaller_partial words_plain (by simp) words_aligned (argsCache words) (fun l => (C76_caches_take_space (fun u => (words_aligned u).1) l).2.2) false
      .lamInt (some .string) _ ⟨trivial, trivial, ⟨trivial, trivial⟩, trivial⟩
      (.inr ⟨by simp, trivial, ⟨by simp, trivial⟩, ⟨by simp, trivial, trivial⟩, trivial⟩)

/-- A string, an `int` and nothing: 37 bytes with 3 of padding, and a flag with 3 of padding. -/
example : let deps : List (LTree ExU) := [.value .string, .function .lam0 .int, .lazy .lam0 none []]
    (argsCache words deps).size = 44 ∧ (deps.map (LTree.valueSize fun u => (words.layout u).size)).sum + 1 ≤ (argsCache words deps).size :=
  ⟨by decide +kernel, (C76_caches_take_space (fun u => (words_aligned u).1) _).1⟩

/-! Plain functions -/

theorem firstLayouts_functions (n : Nat) (dc : List (LTree ExU) → Lt ExU) :
    firstLayouts exTypes dc (List.replicate n (.function .lam0 .int)) = List.replicate n ⟨1, 1, 1, true, [(.user (.user .lam0), 0)]⟩ := by
  induction n with
  | zero => rfl
  | succ n ih => rw [List.replicate_succ, firstLayouts, ih, List.replicate_succ, firstLayout, show exTypes.layout .lam0 = _ from classLayout_nil _]

theorem argsCache_functions (n : Nat) (hn : 0 < n) : argsCache exTypes (List.replicate n (.function .lam0 .int)) = ⟨4 * n + 4, 4 * n + 1, 4, false, []⟩ := by
  have h1 : stdTupleOf ((List.replicate n (.function .lam0 .int : LTree ExU)).map (LTree.valueLayout exTypes)) = ⟨4 * n, 4 * n, 4, false, []⟩ := by
    have h2 := place_words (N := Name (LTy ExU)) n 0 1
    have hm : (List.replicate n (.function .lam0 .int : LTree ExU)).map (LTree.valueLayout exTypes) = List.replicate n (scalar 4) := by
      simp [LTree.valueLayout, exTypes]
    simp only [Nat.mul_zero, Nat.zero_add] at h2
    have he : (List.replicate n (scalar 4 : Lt ExU)).isEmpty = false := by cases n <;> simp_all [List.replicate_succ]
    rw [stdTupleOf, hm]
    simp only [classLayout, List.foldl_nil, h2, he, Bool.false_and, Bool.false_eq_true, if_false]
    rw [if_neg (by omega)]
    simp only [roundUp, Layout.mk.injEq, and_true, show max 1 4 = 4 from rfl]
    omega
  rw [argsCache, h1]
  have hc : ∀ off, conflict ([] : List (Name (LTy ExU) × Nat)) [] off = false := fun off => conflict_false (by simp)
  simp only [stdOptionalOf, classLayout, List.foldl_nil, List.foldl_cons, placeMember, scalar, search_first _ _ _ _ _ (hc _), roundUp, List.map_nil, List.append_nil,
    List.isEmpty_cons, Bool.false_and, Bool.false_eq_true, if_false, Layout.mk.injEq, and_true, show max 1 4 = 4 from rfl, show max 4 1 = 4 from rfl]
  omega

theorem foots_functions (n : Nat) : LTree.foots (fun u => (exTypes.layout u).foot) (fun u => (exTypes.optional u).foot) (some (4, 4))
    (List.replicate n (.function .lam0 .int)) = List.replicate n (some (12, 4)) := by
  induction n with
  | zero => rfl
  | succ n ih =>
    rw [List.replicate_succ, LTree.foots, ih, List.replicate_succ]
    congr 1

/-- C76 is false: a lazy function returning `int` of any number `n` of plain functions returning `int` (none of them capturing anything), takes 8 + 12 n bytes. In the first design
it takes about 5 n + 16, which is less from two functions on: functions were not cached, only their results, and together. -/
theorem C76_functions (n : Nat) (hn : 0 < n) (msvc : Bool) :
    let t : LTree ExU := .lazy .lam0 (some .int) (List.replicate n (.function .lam0 .int))
    (depPart exTypes msvc t).layout.size = 8 + 12 * n ∧ (firstLayout exTypes (argsCache exTypes) t).size = roundUp n 4 + 4 * n + 16 ∧
    (2 ≤ n → (firstLayout exTypes (argsCache exTypes) t).size < (depPart exTypes msvc t).layout.size) := by
  intro t
  have hcur : (depPart exTypes msvc t).layout.size = 8 + 12 * n := by
    obtain ⟨-, h1, h2⟩ := C55_size exTypes_plain msvc .lam0 (some .int) (List.replicate n (.function .lam0 .int))
    have hw : Foot.Aligned 4 (some (12, 4)) := by rintro x hx; cases hx; decide
    have h3 := Aligned.structOf (a := 4) (by simp) (none :: List.replicate n (some (12, 4))) (by
      intro m hm
      rcases List.mem_cons.1 hm with rfl | hm
      · rintro x hx; cases hx
      · rw [List.eq_of_mem_replicate hm]; exact hw)
    have h4 := Aligned.structOf (a := 4) (by simp) [some (8, 4), structOf (none :: List.replicate n (some (12, 4)))] (by
      intro m hm
      simp only [List.mem_cons, List.not_mem_nil, or_false] at hm
      rcases hm with rfl | rfl
      · rintro x hx; cases hx; decide
      · exact h3.1)
    have h5 : (LTree.foot (fun u => (exTypes.layout u).foot) (fun u => (exTypes.optional u).foot) (some (4, 4)) t) =
        structOf [some (8, 4), structOf (none :: List.replicate n (some (12, 4)))] := by
      simp only [t, LTree.foot, foots_functions]
      rfl
    have h6 := congrArg Foot.bytes (h1.trans h5)
    rw [h4.2, List.map_cons, List.map_cons, List.map_nil, h3.2, List.map_cons, List.map_replicate] at h6
    simp only [List.sum_cons, List.sum_nil, List.sum_replicate_nat, Foot.bytes] at h6
    exact h6.trans (by omega)
  have hfirst : (firstLayout exTypes (argsCache exTypes) t).size = roundUp n 4 + 4 * n + 16 := by
    obtain ⟨pl, h1, h2⟩ := place_empties (.user (.user .lam0) : Name (LTy ExU)) n 0 [] (by simp)
    simp only [Nat.zero_add] at h1 h2
    simp only [t, firstLayout, firstLayouts_functions, argsCache_functions n hn, classLayout, List.foldl_append, List.foldl_nil, h2]
    have hc : ∀ off, conflict pl [] off = false := fun off => conflict_false (by simp)
    have hc2 : ∀ off, n ≤ off → conflict pl [(.user (.user .lam0), 0)] off = false := fun off ho => conflict_false (by
      intro m o hm hp
      simp only [List.mem_singleton, Prod.mk.injEq] at hm
      have := h1 _ hp
      simp only [hm.2] at this
      omega)
    have hr : roundUp n 4 = (n + 3) / 4 * 4 := by simp only [roundUp]; omega
    have e1 : placeMember ⟨n, n, 1, pl⟩ (exTypes.cache (some .int)) = ⟨roundUp n 4 + 8, roundUp n 4 + 8, 4, pl⟩ := by
      simp only [Types.cache, exTypes, placeMember, search_first _ _ _ _ _ (hc _), List.map_nil, List.append_nil, Progress.mk.injEq, and_true, hr]
      exact ⟨by omega, trivial, rfl⟩
    have e2 : placeMember ⟨roundUp n 4 + 8, roundUp n 4 + 8, 4, pl⟩ ⟨4 * n + 4, 4 * n + 1, 4, false, []⟩ =
        (⟨roundUp n 4 + 4 * n + 12, roundUp n 4 + 4 * n + 12, 4, pl⟩ : Progress (Name (LTy ExU))) := by
      simp only [placeMember, search_first _ _ _ _ _ (hc _), List.map_nil, List.append_nil, Progress.mk.injEq, and_true]
      have : roundUp (roundUp n 4 + 8) 4 = roundUp n 4 + 8 := by rw [hr]; simp only [roundUp]; omega
      omega
    have e3 : (placeMember ⟨roundUp n 4 + 4 * n + 12, roundUp n 4 + 4 * n + 12, 4, pl⟩ (exTypes.layout .lam0)).size = roundUp n 4 + 4 * n + 13 ∧
        (placeMember ⟨roundUp n 4 + 4 * n + 12, roundUp n 4 + 4 * n + 12, 4, pl⟩ (exTypes.layout .lam0)).align = 4 := by
      have : roundUp (roundUp n 4 + 4 * n + 12) 1 = roundUp n 4 + 4 * n + 12 := by simp [roundUp]
      simp only [exTypes, classLayout_nil, placeMember, this, search_first _ _ _ _ _ (hc2 _ (show n ≤ roundUp n 4 + 4 * n + 12 by omega))]
      omega
    simp only [List.foldl_cons, List.foldl_nil, e1, e2, e3.1, e3.2]
    rw [hr]
    simp only [roundUp]
    omega
  refine ⟨hcur, hfirst, fun h => ?_⟩
  rw [hcur, hfirst]
  simp only [roundUp]
  omega

/-- Three functions: 44 bytes instead of 32. -/
example : let t : LTree ExU := .lazy .lam0 (some .int) [.function .lam0 .int, .function .lam0 .int, .function .lam0 .int]
    (depPart exTypes false t).layout.size = 44 ∧ (firstLayout exTypes (argsCache exTypes) t).size = 32 := by
  have := C76_functions 3 (by simp) false
  exact ⟨this.1, this.2.1⟩

/-- C76 is false without plain functions, too: a lazy function capturing an `int`, of a lazy function capturing a reference, both returning nothing, takes 32 bytes
(a flag with 7 of padding; `int` with 4 of padding; a flag with 7 of padding, the reference), in the first design 24 (caches of
3 bytes with 5 of padding, the reference; caches of 3 bytes with 1 of padding, `int`). -/
theorem C76_padding : ∃ t : LTree ExU, t.noFunctions ∧ ∀ msvc, (depPart exTypes msvc t).layout.size = 32 ∧ (firstLayout exTypes (argsCache exTypes) t).size = 24 :=
  ⟨.lazy .lamInt none [.lazy .lamRef none []], ⟨trivial, trivial⟩, fun msvc => ⟨(C55_size exTypes_plain msvc _ _ _).2.2, by decide +kernel⟩⟩

end Pigro.Lay
