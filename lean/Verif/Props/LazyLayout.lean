import Verif.Proofs.LazyLayout
/-!
# C55: what a lazy function takes in memory
-/
namespace Pigro.Lay
variable {U : Type}

mutual
/-- No plain function is used as a dependency. -/
def LTree.noFunctions : LTree U → Prop
  | .value _ => True
  | .function .. => False
  | .lazy _ _ deps => LTree.allNoFunctions deps
/-- Several. -/
def LTree.allNoFunctions : List (LTree U) → Prop
  | [] => True
  | t :: ts => t.noFunctions ∧ LTree.allNoFunctions ts
end

/-! User's types for the examples: `int`; a lambda without captures, with an `int`, with a reference; `std::string`. -/

inductive ExU where
  | int | lam0 | lamInt | lamRef | string
  deriving DecidableEq

def exTypes : Types ExU where
  layout
    | .int => scalar 4
    | .lam0 => classLayout (.user (.user .lam0)) [] []
    | .lamInt => classLayout (.user (.user .lamInt)) [] [scalar 4]
    | .lamRef => classLayout (.user (.user .lamRef)) [] [scalar 8]
    | .string => ⟨32, 32, 8, false, []⟩
  optional
    | .int => ⟨8, 8, 4, false, []⟩
    | .lam0 => ⟨2, 2, 1, false, []⟩
    | .lamInt => ⟨8, 8, 4, false, []⟩
    | .lamRef => ⟨16, 16, 8, false, []⟩
    | .string => ⟨40, 40, 8, false, []⟩

theorem exTypes_plain : exTypes.Plain where
  layout u := by
    cases u
    · right; refine ⟨rfl, ?_, ?_, ?_, ?_⟩ <;> decide
    · left; rfl
    · right; refine ⟨rfl, ?_, ?_, ?_, ?_⟩ <;> decide
    · right; refine ⟨rfl, ?_, ?_, ?_, ?_⟩ <;> decide
    · right; refine ⟨rfl, ?_, ?_, ?_, ?_⟩ <;> decide
  optional u := by cases u <;> refine ⟨rfl, ?_, ?_, ?_, ?_⟩ <;> decide
  names u := by
    cases u
    · intro e he; simp [exTypes, scalar] at he
    · intro e he
      simp only [exTypes, List.append_nil, classLayout_nil, List.mem_singleton] at he
      exact ⟨.lam0, by rw [he]⟩
    · intro e he
      have : classLayout (.user (.user .lamInt)) [] [(scalar 4 : Lt ExU)] = ⟨4, 4, 4, false, []⟩ := by decide
      simp [exTypes, this] at he
    · intro e he
      have : classLayout (.user (.user .lamRef)) [] [(scalar 8 : Lt ExU)] = ⟨8, 8, 8, false, []⟩ := by decide
      simp [exTypes, this] at he
    · intro e he; simp [exTypes] at he

section
variable [DecidableEq U]

/-- C55, exact: whatever the types, the captures, and the tree of dependencies, a lazy function takes what a struct of its cache, its captures and
its dependencies takes, where each plain function in the tree comes with an `int`. All the wrappers, tuples and tags take nothing. -/
theorem C55_size {Γ : Types U} (h : Γ.Plain) (msvc : Bool) (f : U) (res : Option U) (deps : List (LTree U)) :
    let l := (depPart Γ msvc (.lazy f res deps)).layout
    let want := LTree.foot (fun u => (Γ.layout u).foot) (fun u => (Γ.optional u).foot) (some (4, 4)) (.lazy f res deps)
    l.empty = false ∧ some (l.size, l.align) = want ∧ l.size = want.size := by
  obtain ⟨-, -, -, h4⟩ := depPart_spec h msvc (.lazy f res deps)
  have hne : (LTree.foot (fun u => (Γ.layout u).foot) (fun u => (Γ.optional u).foot) (some (4, 4)) (.lazy f res deps)) ≠ none := by
    obtain ⟨hp, -, hc⟩ := h.cache_spec res
    rw [LTree.foot, ← hc, Layout.foot, hp.1]
    simp [structOf]
  have he : (depPart Γ msvc (.lazy f res deps)).layout.empty = false := by
    rw [Bool.eq_false_iff]
    intro he
    rw [foot_empty.2 he] at h4
    exact hne h4.symm
  simp only
  rw [← h4, Layout.foot, if_neg (by simp [he])]
  exact ⟨he, rfl, rfl⟩

/-- `lazy(f, "..."s, lazy(g, 1), [&] { return ...; })`, where `f` captures an `int`: cache 40; captures 4 and 4 of padding; string 32;
inner lazy function 12 and 4 of padding; cache 8, captured reference 8 and the extra 4 with 4 of padding. -/
example : let t : LTree ExU := .lazy .lamInt (some .string) [.value .string, .lazy .lam0 (some .int) [.value .int], .function .lamRef .int]
    (depPart exTypes false t).layout.size = 120 ∧ (depPart exTypes true t).layout.size = 120 :=
  ⟨(C55_size exTypes_plain false _ _ _).2.2, (C55_size exTypes_plain true _ _ _).2.2⟩

/-- The lazy functions of the test "memory_footprint" for which it is right (tests/lazy.test.cpp:191-207, 227-228). -/
example : (depPart exTypes false (.lazy .lam0 none [])).layout.size = 1 ∧
    (depPart exTypes false (.lazy .lam0 (some .int) [])).layout.size = 8 ∧
    (depPart exTypes false (.lazy .lamInt (some .int) [])).layout.size = 12 ∧
    (depPart exTypes false (.lazy .lamRef (some .int) [])).layout.size = 16 ∧
    (depPart exTypes false (.lazy .lam0 (some .int) [.value .int])).layout.size = 12 ∧
    (depPart exTypes false (.lazy .lam0 (some .int) [.lazy .lam0 (some .int) []])).layout.size = 16 :=
  ⟨(C55_size exTypes_plain false _ _ _).2.2, (C55_size exTypes_plain false _ _ _).2.2, (C55_size exTypes_plain false _ _ _).2.2,
    (C55_size exTypes_plain false _ _ _).2.2, (C55_size exTypes_plain false _ _ _).2.2, (C55_size exTypes_plain false _ _ _).2.2⟩

omit [DecidableEq U] in
mutual
theorem foot_noFunctions (ty opt : U → Foot) (d d' : Foot) : ∀ t : LTree U, t.noFunctions → t.foot ty opt d = t.foot ty opt d'
  | .value _, _ => rfl
  | .lazy f res deps, h => by rw [LTree.foot, LTree.foot, foots_noFunctions ty opt d d' deps h]
theorem foots_noFunctions (ty opt : U → Foot) (d d' : Foot) : ∀ ts : List (LTree U), LTree.allNoFunctions ts →
    LTree.foots ty opt d ts = LTree.foots ty opt d' ts
  | [], _ => rfl
  | t :: ts, h => by rw [LTree.foots, LTree.foots, foot_noFunctions ty opt d d' t h.1, foots_noFunctions ty opt d d' ts h.2]
end

/-- C55 in full: `(depPart Γ msvc t).layout.size = (LTree.foot .. none t).size` for every lazy function. True if no plain function is used as a
dependency; what is missing is the other case, see `C55_function_costs_int`. -/
theorem C55_no_functions_partial {Γ : Types U} (h : Γ.Plain) (msvc : Bool) (f : U) (res : Option U) (deps : List (LTree U))
    (hd : LTree.allNoFunctions deps) :
    let l := (depPart Γ msvc (.lazy f res deps)).layout
    let want := LTree.foot (fun u => (Γ.layout u).foot) (fun u => (Γ.optional u).foot) none (.lazy f res deps)
    some (l.size, l.align) = want ∧ l.size = want.size := by
  have := (C55_size h msvc f res deps).2
  rwa [foot_noFunctions _ _ (some (4, 4)) none (.lazy f res deps) hd] at this

example : let t : LTree ExU := .lazy .lamInt (some .string) [.value .string, .lazy .lam0 none [.value .lam0, .value .int]]
    (depPart exTypes false t).layout.size = 88 :=
  (C55_no_functions_partial exTypes_plain false .lamInt (some .string) [.value .string, .lazy .lam0 none [.value .lam0, .value .int]] ⟨trivial, ⟨trivial, trivial, trivial⟩, trivial⟩).2

/-- C55 is false: a plain function as dependency takes 4 bytes more than its cache and its captures. These are `f7`, `f8`, `f9` of the test
"memory_footprint" (tests/lazy.test.cpp:213-225), which expects 16, 20, and 24. -/
theorem C55_function_costs_int :
    ∃ (Γ : Types ExU) (t7 t8 t9 : LTree ExU), Γ.Plain ∧
      let want (t : LTree ExU) := (LTree.foot (fun u => (Γ.layout u).foot) (fun u => (Γ.optional u).foot) none t).size
      (want t7, want t8, want t9) = (16, 20, 24) ∧
      ∀ msvc, ((depPart Γ msvc t7).layout.size, (depPart Γ msvc t8).layout.size, (depPart Γ msvc t9).layout.size) = (20, 24, 32) :=
  ⟨exTypes, .lazy .lam0 (some .int) [.function .lam0 .int], .lazy .lam0 (some .int) [.function .lamInt .int],
    .lazy .lam0 (some .int) [.function .lamRef .int], exTypes_plain, by decide, fun msvc => by
    rw [(C55_size exTypes_plain msvc _ _ _).2.2, (C55_size exTypes_plain msvc _ _ _).2.2, (C55_size exTypes_plain msvc _ _ _).2.2]
    decide⟩

end
end Pigro.Lay
