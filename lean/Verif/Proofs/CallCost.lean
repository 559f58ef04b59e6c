import Verif.Spec.CallCost
import Verif.Proofs.Compare
import Verif.Proofs.LazyMore
/-!
# Proofs for C93
-/
namespace Pigro
variable {D W E S O : Type}

/-- The two numbers of a tree. -/
def Tree.numbers (t : Tree D W E S) : Nat × Nat := (t.leafIds.length, t.postIds.length)

theorem Tree.numbers_lazy (c : FnCode D W E S) (us : List (Tree D W E S)) :
    (Tree.lazy c us).numbers = ((us.map fun t => t.numbers.1).sum, (us.map fun t => t.numbers.2).sum + 1) := by
  simp only [Tree.numbers, Tree.leafIds, Tree.postIds, List.length_flatten, List.map_map, List.length_append, List.length_cons, List.length_nil]
  rfl

theorem reached_trees (ts : List (Tree D W E S)) (as : List (ArgRef D W E S)) :
    reached (ts.map Tree.numbers) as = (argTrees ts as).map fun us => ((us.map fun t => t.numbers.1).sum, (us.map fun t => t.numbers.2).sum) := by
  induction as with
  | nil => rfl
  | cons a as ih =>
    rcases a with v | u | i
    · rw [reached, ih, argTrees]
      simp only [ArgRef.tree]
      cases argTrees ts as with
      | none => rfl
      | some us => simp [Tree.numbers, Tree.leafIds, Tree.postIds]
    · rw [reached, ih, argTrees]
      simp only [ArgRef.tree]
      by_cases h : u.ret = .void
      · simp [h]
      · simp only [if_neg h]
        cases argTrees ts as with
        | none => rfl
        | some us => simp [Tree.numbers, Tree.leafIds, Tree.postIds, Nat.add_comm]
    · rw [reached, ih, argTrees, List.getElem?_map]
      simp only [ArgRef.tree]
      cases ts[i]? with
      | none => rfl
      | some t => cases argTrees ts as <;> simp

theorem paths_trees (ops : List (Op D W E S)) : ∀ ts : List (Tree D W E S), paths (ts.map Tree.numbers) ops = (runTrees ts ops).map Tree.numbers := by
  induction ops with
  | nil => intro ts; rfl
  | cons op ops ih =>
    intro ts
    have hr : runTrees ts (op :: ops) = runTrees (stepTrees ts op) ops := rfl
    rw [hr, ← ih]
    cases op with
    | mk f deps =>
      simp only [paths, stepTrees, reached_trees]
      cases argTrees ts deps with
      | none => simp
      | some us => simp [Tree.numbers_lazy]
    | copy i =>
      simp only [paths, stepTrees, List.getElem?_map]
      cases ts[i]? <;> simp
    | call i => rfl
    | poll i => rfl
    | poke h => rfl

mutual
theorem nodeLog_cmps {o : Obj D W E S} {l : List (Ev D S)} (h : NodeLog o l) : (cmps l).length ≤ (calls l).length := by
  cases h with
  | value => exact Nat.le_refl _
  | idle f c hd => exact depsLog_cmps hd
  | threw f c args w w' x st hd hr =>
    rw [cmps_append, calls_append]
    have := depsLog_cmps hd
    simp [cmps, calls]
    omega
  | first f c args w w' v st hd hr hc =>
    rw [cmps_append, calls_append]
    have := depsLog_cmps hd
    simp [cmps, calls]
    omega
  | again f c args w w' v old st hd hr hc =>
    rw [cmps_append, calls_append]
    have := depsLog_cmps hd
    simp [cmps, calls]
    omega
  | unwrapped h => exact nodeLog_cmps h
  | unregularized h => exact nodeLog_cmps h
theorem depsLog_cmps {os : List (Obj D W E S)} {l : List (Ev D S)} (h : DepsLog os l) : (cmps l).length ≤ (calls l).length := by
  cases h with
  | stop => exact Nat.le_refl _
  | cons h1 h2 =>
    rw [cmps_append, calls_append, List.length_append, List.length_append]
    have := nodeLog_cmps h1
    have := depsLog_cmps h2
    omega
end

/-- With the same observations, nothing is recalculated. -/
theorem recalc_same [CxxData D] (hr : ReflNe D) (m : Meaning D W E S O) (o : O) (t : Tree D W E S) : m.recalc o o t = [] := by
  induction t using Tree.rec (motive_2 := fun ts => ∀ t ∈ ts, m.recalc o o t = []) with
  | value v => simp [Meaning.recalc]
  | function c => simp [Meaning.recalc]
  | lazy c deps ih =>
    simp only [Meaning.recalc, Val.ne_refl hr]
    simpa using ih
  | nil t ht => cases ht
  | cons t ts h1 h2 u hu =>
    rcases List.mem_cons.1 hu with rfl | hu
    · exact h1
    · exact h2 u hu

/-- And every plain function is compared, at most once. -/
theorem recmp_same [CxxData D] (hr : ReflNe D) (m : Meaning D W E S O) (o : O) (t : Tree D W E S) : (m.recmp o o t).length ≤ t.leafIds.length ∧
    (t.NoVoid → (m.recmp o o t).length = t.leafIds.length) := by
  induction t using Tree.rec (motive_2 := fun ts => ((ts.map (m.recmp o o)).flatten).length ≤ ((ts.map Tree.leafIds).flatten).length ∧
    ((∀ t ∈ ts, t.NoVoid) → ((ts.map (m.recmp o o)).flatten).length = ((ts.map Tree.leafIds).flatten).length)) with
  | value v => simp [Meaning.recmp, Tree.leafIds]
  | function c =>
    simp only [Meaning.recmp, Tree.leafIds]
    refine ⟨?_, ?_⟩
    · split <;> simp
    · intro h
      cases h with
      | function _ h => simp [h]
  | lazy c deps ih =>
    simp only [Meaning.recmp, Val.ne_refl hr, Tree.leafIds]
    have e : (List.map (fun _ : Tree D W E S => false) deps).any id = false := by simp
    simp only [e, Bool.false_eq_true, false_and, if_false, List.append_nil]
    refine ⟨ih.1, ?_⟩
    rintro (_ | _ | ⟨_, _, -, h⟩)
    exact ih.2 h
  | nil => simp
  | cons t ts h1 h2 =>
    simp only [List.map_cons, List.flatten_cons, List.length_append]
    refine ⟨by omega, fun h => ?_⟩
    rw [h1.2 (h t (by simp)), h2.2 (fun u hu => h u (by simp [hu]))]

end Pigro
