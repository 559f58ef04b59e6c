import Verif.Model.Algorithms
import Verif.Spec.Replay
/-!
# C41, C42: transform, any
-/
namespace Pigro
variable {α β σ : Type}

/-- A function with effects, as an evaluation that always succeeds. -/
abbrev always (p : α → σ → β × σ) : α → σ → Out Empty β × σ := fun a s => (.ok (p a s).1, (p a s).2)

/-! ### C41 -/

theorem mapState_inOrder (p : α → σ → β × σ) (data : List α) : ∀ s : σ,
    InOrder (always p) data s (mapState p data s).1 (mapState p data s).2 := by
  induction data with
  | nil => intro s; exact .nil s
  | cons a as ih => intro s; exact .cons rfl (ih _)

/-- `InOrder` determines results and final state. -/
theorem InOrder.unique {E : Type} {ev : α → σ → Out E β × σ} {as : List α} {s : σ} {bs bs' : List β}
    {s1 s2 : σ} (h : InOrder ev as s bs s1) (h' : InOrder ev as s bs' s2) : bs = bs' ∧ s1 = s2 := by
  induction h generalizing bs' s2 with
  | nil s => cases h'; exact ⟨rfl, rfl⟩
  | cons he _ ih =>
    cases h' with
    | cons he' h2 =>
      rw [he] at he'
      cases he'
      obtain ⟨rfl, rfl⟩ := ih h2
      exact ⟨rfl, rfl⟩

/-- **C41** (partial: not when there is one element and its projection is itself a tuple). Evaluating the
projection once on each element, left to right, gives the elements of the result and the final state.
The projection may have effects. -/
theorem C41_transform_partial (asTuple : β → Option (List β)) (p : α → σ → β × σ) (data : List α)
    (s s' : σ) (bs : List β) (h : InOrder (always p) data s bs s')
    (hlone : ∀ b, bs = [b] → asTuple b = none) :
    transformS asTuple p data s = (bs, s') := by
  obtain ⟨rfl, rfl⟩ := (mapState_inOrder p data s).unique h
  rcases hm : mapState p data s with ⟨xs, s2⟩
  simp only [transformS, hm]
  rw [hm] at hlone
  match xs, hlone with
  | [], _ => rfl
  | [x], hl => simp [tupleCTAD, hl x rfl]
  | _ :: _ :: _, _ => rfl

/-- Two elements, a counting projection; the first result is a tuple. -/
example : transformS Val.asTuple
    (fun (n : Nat) (log : List Nat) =>
      (if n = 0 then Val.tup [] else Val.data (n + log.length), log ++ [n])) [0, 7] [] =
    ([Val.tup [], Val.data 8], [0, 7]) :=
  C41_transform_partial _ _ _ _ _ _ (.cons rfl (.cons rfl (.nil _))) (by intro b hb; simp at hb)

/-- `transform` without effects is `map`. -/
theorem C41_transform_pure_partial (asTuple : β → Option (List β)) (p : α → β) (data : List α)
    (hlone : ∀ a, data = [a] → asTuple (p a) = none) : transform asTuple p data = data.map p := by
  have h : ∀ (data : List α), InOrder (always fun a (_ : Unit) => (p a, ())) data () (data.map p) () := by
    intro data
    induction data with
    | nil => exact .nil _
    | cons a as ih => exact .cons rfl ih
  have := C41_transform_partial asTuple _ data () () _ (h data) (by
    intro b hb
    match data, hb with
    | [a], hb => simp at hb; subst hb; exact hlone a rfl)
  simp [transform, this]

example : transform Val.asTuple (fun n : Nat => Val.data (n + 1)) [1, 2, 3] =
    [Val.data 2, Val.data 3, Val.data 4] :=
  C41_transform_pure_partial _ _ _ (by intro a h; simp at h)

/-- **C41 is false** for one element whose projection is a tuple: the result is that tuple itself, for
every projection; its size differs from 1 unless the tuple has exactly one element. -/
theorem C41_lone_tuple_unpacked (asTuple : β → Option (List β)) (p : α → σ → β × σ) (a : α) (s : σ)
    (vs : List β) (h : asTuple (p a s).1 = some vs) :
    transformS asTuple p [a] s = (vs, (p a s).2) := by
  simp [transformS, mapState, tupleCTAD, h]

example : (transform Val.asTuple (fun _ : Nat => Val.tup [Val.data 1, Val.data 2]) [0]).length = 2 := by
  rw [transform, C41_lone_tuple_unpacked Val.asTuple
    (fun (_ : Nat) (_ : Unit) => (Val.tup [Val.data 1, Val.data 2], ())) 0 ()
    [Val.data 1, Val.data 2] rfl]
  rfl

/-! ### C42 -/

/-- **C42.** `any` tests a prefix of the elements, each once, left to right; all but possibly the last
tested element fail; the answer is whether the last tested one succeeds, and if the answer is `false`,
all elements were tested. The predicate may have effects. -/
theorem C42_any_short_circuit (p : α → σ → Bool × σ) (data : List α) (s : σ) :
    ∃ tested rest bs, data = tested ++ rest ∧
      InOrder (always p) tested s bs (anyS p data s).2 ∧
      (((anyS p data s).1 = true ∧ ∃ before, bs = before ++ [true] ∧ ∀ b ∈ before, b = false) ∨
       ((anyS p data s).1 = false ∧ rest = [] ∧ ∀ b ∈ bs, b = false)) := by
  induction data generalizing s with
  | nil => exact ⟨[], [], [], rfl, .nil _, .inr ⟨rfl, rfl, by simp⟩⟩
  | cons a as ih =>
    rcases h : p a s with ⟨b, s1⟩
    cases b with
    | true =>
      have : anyS p (a :: as) s = (true, s1) := by simp only [anyS, h]
      rw [this]
      exact ⟨[a], as, [true], rfl, .cons (by simp [always, h]) (.nil _),
        .inl ⟨rfl, [], rfl, by simp⟩⟩
    | false =>
      have : anyS p (a :: as) s = anyS p as s1 := by simp only [anyS, h]
      rw [this]
      obtain ⟨tested, rest, bs, h1, h2, h3⟩ := ih s1
      refine ⟨a :: tested, rest, false :: bs, by rw [h1]; rfl, .cons (by simp [always, h]) h2, ?_⟩
      rcases h3 with ⟨h3, before, h4, h5⟩ | ⟨h3, h4, h5⟩
      · exact .inl ⟨h3, false :: before, by rw [h4]; rfl, by simpa using h5⟩
      · exact .inr ⟨h3, h4, by simpa using h5⟩

/-- Third element succeeds; the fourth is not tested. -/
example : anyS (fun (n : Nat) (log : List Nat) => (n == 3, log ++ [n])) [1, 2, 3, 4] [] =
    (true, [1, 2, 3]) := rfl

/-- **C42**, without effects: true iff some element satisfies the predicate. -/
theorem C42_any_iff (p : α → Bool) (data : List α) :
    any p data = true ↔ ∃ a ∈ data, p a = true := by
  induction data with
  | nil => simp [any, anyS]
  | cons a as ih =>
    simp only [any] at ih
    cases h : p a with
    | true => simp [any, anyS, h]
    | false => simp [any, anyS, h, ih]

example : any (fun n : Nat => n == 3) [1, 2, 3, 4] = true :=
  (C42_any_iff _ _).2 ⟨3, by simp, by simp⟩

end Pigro
