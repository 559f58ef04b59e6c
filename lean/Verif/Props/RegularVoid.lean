import Verif.Model.RegularVoid
/-!
# C48: `optional<regular_void>` is an optional of a one-value type
-/
namespace Pigro.RV

/-- The specification: `std::optional<T>` for a type `T` with decidable equality, here `Unit`.
`operator*` of a disengaged optional is undefined. -/
def Spec.step (xs : List (Option Unit)) : Op → Ans × List (Option Unit)
  | .default => (.none, xs ++ [Option.none])
  | .ofValue => (.none, xs ++ [some ()])
  | .copy i => (.none, xs ++ xs[i]?.toList)
  | .assign i => (.none, xs.modify i fun _ => some ())
  | .copyAssign i j => match xs[j]? with
    | some y => (.none, xs.set i y)
    | none => (.none, xs)
  | .test i => match xs[i]? with
    | some x => (.bool x.isSome, xs)
    | none => (.none, xs)
  | .eq i j => match xs[i]?, xs[j]? with
    | some x, some y => (.bool (decide (x = y)), xs)
    | _, _ => (.none, xs)
  | .ne i j => match xs[i]?, xs[j]? with
    | some x, some y => (.bool (decide (x ≠ y)), xs)
    | _, _ => (.none, xs)
  | .neValue i => match xs[i]? with
    | some x => (.bool (decide (x ≠ some ())), xs)
    | none => (.none, xs)
  | .deref i => match xs[i]? with
    | some (some ()) => (.value, xs)
    | some none => (.undef, xs)
    | none => (.none, xs)

/-- A program, according to the specification. -/
def Spec.run : List (Option Unit) → List Op → List Ans
  | _, [] => []
  | xs, op :: ops => (Spec.step xs op).1 :: Spec.run (Spec.step xs op).2 ops

/-- Refinement: the same answer, wherever the specification gives one. -/
def Refines (impl spec : Ans) : Prop := spec = .undef ∨ impl = spec

/-- Refinement, answer by answer. -/
def AllRefine : List Ans → List Ans → Prop
  | [], [] => True
  | a :: as, b :: bs => Refines a b ∧ AllRefine as bs
  | _, _ => False

/-- The optional a flag stands for. -/
def abs (x : OptRV) : Option Unit := if x.engaged then some () else none

theorem abs_inj {x y : OptRV} : abs x = abs y ↔ x = y := by
  rcases x with ⟨x⟩
  rcases y with ⟨y⟩
  cases x <;> cases y <;> simp [abs]

theorem modify_abs (xs : List OptRV) (i : Nat) :
    (xs.modify i OptRV.assign).map abs = (xs.map abs).modify i fun _ => some () := by
  induction xs generalizing i with
  | nil => cases i <;> rfl
  | cons x xs ih =>
    cases i with
    | zero => rfl
    | succ i => simp [ih]

theorem step_refines (xs : List OptRV) (op : Op) :
    Refines (step xs op).1 (Spec.step (xs.map abs) op).1 ∧
    (step xs op).2.map abs = (Spec.step (xs.map abs) op).2 := by
  cases op with
  | default => exact ⟨.inr rfl, by simp [step, Spec.step, abs, OptRV.default]⟩
  | ofValue => exact ⟨.inr rfl, by simp [step, Spec.step, abs, OptRV.ofRV]⟩
  | copy i =>
    refine ⟨.inr rfl, ?_⟩
    simp only [step, Spec.step, List.map_append, List.getElem?_map]
    cases xs[i]? <;> rfl
  | assign i => exact ⟨.inr rfl, modify_abs xs i⟩
  | copyAssign i j =>
    simp only [step, Spec.step, List.getElem?_map]
    cases xs[j]? with
    | none => exact ⟨.inr rfl, rfl⟩
    | some y => exact ⟨.inr rfl, by simp [List.map_set]⟩
  | test i =>
    simp only [step, Spec.step, List.getElem?_map]
    cases xs[i]? with
    | none => exact ⟨.inr rfl, rfl⟩
    | some x =>
      refine ⟨.inr ?_, rfl⟩
      rcases x with ⟨b⟩
      cases b <;> rfl
  | eq i j =>
    simp only [step, Spec.step, List.getElem?_map]
    cases xs[i]? <;> cases xs[j]? <;> try exact ⟨.inr rfl, rfl⟩
    rename_i x y
    refine ⟨.inr ?_, rfl⟩
    rcases x with ⟨x⟩
    rcases y with ⟨y⟩
    cases x <;> cases y <;> rfl
  | ne i j =>
    simp only [step, Spec.step, List.getElem?_map]
    cases xs[i]? <;> cases xs[j]? <;> try exact ⟨.inr rfl, rfl⟩
    rename_i x y
    refine ⟨.inr ?_, rfl⟩
    rcases x with ⟨x⟩
    rcases y with ⟨y⟩
    cases x <;> cases y <;> rfl
  | neValue i =>
    simp only [step, Spec.step, List.getElem?_map]
    cases xs[i]? with
    | none => exact ⟨.inr rfl, rfl⟩
    | some x =>
      refine ⟨.inr ?_, rfl⟩
      rcases x with ⟨b⟩
      cases b <;> rfl
  | deref i =>
    simp only [step, Spec.step, List.getElem?_map]
    cases xs[i]? with
    | none => exact ⟨.inr rfl, rfl⟩
    | some x =>
      rcases x with ⟨b⟩
      cases b
      · exact ⟨.inl rfl, rfl⟩
      · exact ⟨.inr rfl, rfl⟩

/-- **C48.** Every program over variables of type `std::optional<regular_void>` gives, operation by
operation, the answers of the specification wherever that defines one. -/
theorem C48_optional_regular_void (ops : List Op) :
    (run [] ops).length = ops.length ∧ AllRefine (run [] ops) (Spec.run [] ops) := by
  have h : ∀ (ops : List Op) (xs : List OptRV),
      (run xs ops).length = ops.length ∧ AllRefine (run xs ops) (Spec.run (xs.map abs) ops) := by
    intro ops
    induction ops with
    | nil => intro xs; exact ⟨rfl, trivial⟩
    | cons op ops ih =>
      intro xs
      obtain ⟨h1, h2⟩ := step_refines xs op
      refine ⟨congrArg (· + 1) (ih _).1, ?_⟩
      simp only [run, Spec.run]
      rw [← h2]
      exact ⟨h1, (ih _).2⟩
  exact h ops []

/-- The cache of a `void` lazy function: disengaged and different from the first result, then equal. -/
example : run [] [.default, .test 0, .neValue 0, .assign 0, .test 0, .neValue 0, .deref 0] =
    [.none, .bool false, .bool true, .none, .bool true, .bool false, .value] ∧
    Spec.run [] [.default, .test 0, .neValue 0, .assign 0, .test 0, .neValue 0, .deref 0] =
    [.none, .bool false, .bool true, .none, .bool true, .bool false, .value] := ⟨rfl, rfl⟩

end Pigro.RV
