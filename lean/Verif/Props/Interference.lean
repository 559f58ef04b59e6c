import Verif.Proofs.Interference
import Verif.Props.LazyGlue
/-!
# C82: lazy functions that are independent do not interfere
-/
namespace Pigro
variable {D W E S : Type} [CxxData D]

/-- **C82**, any glue, arbitrary functions. A program makes variables (`ops1`) and goes on (`ops2`). `ours` are some of the variables; `R` says what their functions can
see of the world, and the functions of all other variables, including those made later, do nothing that can be seen through it. Then every operation that concerns ours
gives what it gives in the program from which all operations on the others have been removed: the same results, exceptions, undefined behaviour, invocations (with
arguments and own states) and comparisons. And ours are left in the same state. -/
theorem C82_interference {R : W → W → Prop} (hR : Equivalence R) (g : Glue) (w : W) (ops1 ops2 : List (Op D W E S)) (ours : Nat → Bool)
    (hmade : ∀ j, ours j = true → j < (runTrees [] ops1).length)
    (hours : ∀ j t, ours j = true → (runTrees [] ops1)[j]? = some t → ∀ c ∈ t.codes, c.SeesOnly R)
    (hothers : ∀ j t, ours j = false → (runTrees [] (ops1 ++ ops2))[j]? = some t → ∀ c ∈ t.codes, c.Unseen R)
    (hpoke : ∀ f, Op.poke f ∈ ops2 → ∀ w w', R w w' → R (f w) (f w')) :
    let s := after g w ops1
    let ops2' := ops2.filter (·.concerns ours)
    (observed g s ops2).filter (·.1.concerns ours) = observed g s ops2' ∧
    (∀ j, ours j = true → (after g w (ops1 ++ ops2)).vars[j]? = (after g w (ops1 ++ ops2')).vars[j]?) ∧
    R (after g w (ops1 ++ ops2)).env.w (after g w (ops1 ++ ops2')).env.w := by
  intro s ops2'
  obtain ⟨h1, h2⟩ := same_run hR g ops2 _ s s (reach_inv g w ops1) ⟨fun _ _ => rfl, hR.refl _⟩ hmade hours
    (by rw [runTrees_append] at hothers; exact hothers) hpoke
  refine ⟨h1, fun j hj => ?_, ?_⟩
  · simp only [after, run_append]
    exact h2.vars j hj
  · simp only [after, run_append]
    exact h2.w

/-- **C82** for others that only read the world: whatever our functions do, the others might as well not be there. -/
theorem C82_readers (g : Glue) (w : W) (ops1 ops2 : List (Op D W E S)) (ours : Nat → Bool)
    (hmade : ∀ j, ours j = true → j < (runTrees [] ops1).length)
    (hothers : ∀ j t, ours j = false → (runTrees [] (ops1 ++ ops2))[j]? = some t → ∀ c ∈ t.codes, ∀ st args w, (c.run st args w).2.2 = w) :
    let s := after g w ops1
    let ops2' := ops2.filter (·.concerns ours)
    (observed g s ops2).filter (·.1.concerns ours) = observed g s ops2' ∧
    (∀ j, ours j = true → (after g w (ops1 ++ ops2)).vars[j]? = (after g w (ops1 ++ ops2')).vars[j]?) ∧
    (after g w (ops1 ++ ops2)).env.w = (after g w (ops1 ++ ops2')).env.w :=
  C82_interference (R := Eq) ⟨fun _ => rfl, Eq.symm, Eq.trans⟩ g w ops1 ops2 ours hmade (by rintro j t _ _ c _ st args w _ rfl; exact ⟨rfl, rfl, rfl⟩)
    (fun j t hj ht c hc st args w => (hothers j t hj ht c hc st args w).symm) (by rintro f _ w _ rfl; rfl)

/-- **C82**, order of evaluation: two programs that do the same with ours, in the same order, and anything with the others, in any order. -/
theorem C82_any_order {R : W → W → Prop} (hR : Equivalence R) (g : Glue) (w : W) (ops1 opsA opsB : List (Op D W E S)) (ours : Nat → Bool)
    (hmade : ∀ j, ours j = true → j < (runTrees [] ops1).length)
    (hours : ∀ j t, ours j = true → (runTrees [] ops1)[j]? = some t → ∀ c ∈ t.codes, c.SeesOnly R)
    (hA : ∀ j t, ours j = false → (runTrees [] (ops1 ++ opsA))[j]? = some t → ∀ c ∈ t.codes, c.Unseen R)
    (hB : ∀ j t, ours j = false → (runTrees [] (ops1 ++ opsB))[j]? = some t → ∀ c ∈ t.codes, c.Unseen R)
    (hpoke : ∀ f, Op.poke f ∈ opsA → ∀ w w', R w w' → R (f w) (f w'))
    (hsame : opsA.filter (·.concerns ours) = opsB.filter (·.concerns ours)) :
    (observed g (after g w ops1) opsA).filter (·.1.concerns ours) = (observed g (after g w ops1) opsB).filter (·.1.concerns ours) := by
  have hpB : ∀ f, Op.poke f ∈ opsB → ∀ w w', R w w' → R (f w) (f w') := fun f hf => by
    have h1 : Op.poke f ∈ opsB.filter (·.concerns ours) := List.mem_filter.2 ⟨hf, rfl⟩
    rw [← hsame] at h1
    exact hpoke f (List.mem_filter.1 h1).1
  rw [(C82_interference hR g w ops1 opsA ours hmade hours hA hpoke).1, (C82_interference hR g w ops1 opsB ours hmade hours hB hpB).1, hsame]

namespace Demo

/-- Functions with a counter each in a world of two. -/
def leftNext : UFn Int (Int × Int) Nat Nat := ⟨⟨1, .val, fun s _ w => (.ok (.data w.1), s + 1, (w.1 + 1, w.2))⟩, 0⟩
def rightNext : UFn Int (Int × Int) Nat Nat := ⟨⟨2, .val, fun s _ w => (.ok (.data w.2), s + 1, (w.1, w.2 + 1))⟩, 0⟩
def sum2 : UFn Int (Int × Int) Nat Nat := ⟨⟨3, .val, fun s vs w => (.ok (.data ((vs.map toInt).foldl (· + ·) 0)), s + 1, w)⟩, 0⟩

def twoSides : List (Op Int (Int × Int) Nat Nat) := [.mk sum2 [.function leftNext], .mk sum2 [.function rightNext, .value (.data 100)]]
def mixed : List (Op Int (Int × Int) Nat Nat) :=
  [.call 1, .call 0, .copy 1, .call 2, .mk sum2 [.var 2, .var 1], .call 3, .poke (fun w => (w.1 + 5, w.2)), .poll 0, .call 1, .call 0]

/-- Variable 0 counts on the left; 1, its copy 2, and 3, made of those two, count on the right. The evaluations of 0 return 7, 13 and 14, each running both functions, as if
the others were not there. -/
example (g : Glue) :
    (observed g (after g (7, 0) twoSides) mixed).filter (·.1.concerns (· == 0)) =
      observed g (after g (7, 0) twoSides) [.call 0, .poke (fun w => (w.1 + 5, w.2)), .poll 0, .call 0] := by
  have hR : Equivalence (fun a b : Int × Int => a.1 = b.1) := ⟨fun _ => rfl, Eq.symm, Eq.trans⟩
  have hts : runTrees [] (twoSides ++ mixed) = [.lazy sum2.toFnCode [.function leftNext.toFnCode],
      .lazy sum2.toFnCode [.function rightNext.toFnCode, .value (.data 100)], .lazy sum2.toFnCode [.function rightNext.toFnCode, .value (.data 100)],
      .lazy sum2.toFnCode [.lazy sum2.toFnCode [.function rightNext.toFnCode, .value (.data 100)], .lazy sum2.toFnCode [.function rightNext.toFnCode, .value (.data 100)]]] := rfl
  refine (C82_interference hR g (7, 0) twoSides mixed (· == 0) ?_ ?_ ?_ ?_).1
  · intro j hj
    rw [eq_of_beq hj]
    exact Nat.zero_lt_two
  · intro j t hj ht c hc
    rw [eq_of_beq hj] at ht
    cases Option.some.inj (ht.symm.trans (show (runTrees [] twoSides)[0]? = some (.lazy sum2.toFnCode [.function leftNext.toFnCode]) from rfl))
    simp [Tree.codes] at hc
    rcases hc with rfl | rfl <;> intro st args w w' h <;> simp_all [leftNext, sum2]
  · rw [hts]
    intro j t hj ht c hc st args w
    have hj' : j ≠ 0 := by simpa using hj
    have : c = rightNext.toFnCode ∨ c = sum2.toFnCode := by
      rcases j with _ | _ | _ | _ | j
      · exact absurd rfl hj'
      all_goals simp at ht
      all_goals subst ht
      all_goals simp [Tree.codes] at hc
      all_goals rcases hc with rfl | rfl | rfl | rfl | rfl | rfl <;> simp
    rcases this with rfl | rfl <;> rfl
  · intro f hf w w' h
    simp [mixed] at hf
    subst hf
    exact congrArg (· + 5) h

example : (observed Glue.retained (after Glue.retained (7, 0) twoSides) mixed).map (·.2.1) =
    [.ret (.ok (some (.data 100))), .ret (.ok (some (.data 7))), .unit, .ret (.ok (some (.data 101))), .unit, .ret (.ok (some (.data 205))), .unit,
      .polled (.ok ⟨.data 13, true, true⟩), .ret (.ok (some (.data 104))), .ret (.ok (some (.data 14)))] := rfl

end Demo

open Demo in
/-- The condition on the others is needed, also for the pinned code with results by value: a function of another variable that increments what ours reads. -/
theorem C82_meddling (g : Glue) (hr : g.resultByRef = false) :
    (step g (after g 5 [.mk sum [.function rd], .mk sum [.function inc], .call 1] : State Int Int Nat Nat) (.call 0)).1 = .ret (.ok (some (.data 6))) ∧
    (step g (after g 5 [.mk sum [.function rd], .mk sum [.function inc]] : State Int Int Nat Nat) (.call 0)).1 = .ret (.ok (some (.data 5))) := by
  rcases g with ⟨a, b, c, d, e, f, h, r⟩
  cases hr
  cases a <;> cases b <;> cases c <;> cases d <;> cases e <;> cases f <;> cases h <;> exact ⟨rfl, rfl⟩

namespace LM
open Cxx

/-- What is observed of each operation of a program at memory level. -/
def observedM [CxxData D] (Λ : LLang D W E S) (g : Glue) : MState D W E S → List (Op D W E S) → List (Op D W E S × Seen D E × List (Ev D S))
  | _, [] => []
  | s, op :: ops =>
    (op, (stepMG Λ g s op).1, (stepMG Λ g s op).2.mem.world.log.drop s.mem.world.log.length) :: observedM Λ g (stepMG Λ g s op).2 ops

theorem observedM_spec (Θ : Empties D W E S) (hΘ : Stateless Θ) (moved : MV D W E S → MV D W E S) (g : Glue) (hst : ConstantsStored Θ g) :
    ∀ (ops : List (Op D W E S)) (t : MState D W E S) (s : State D W E S), SimG t s →
      observedM (lang Θ moved) g t ops = (observed g s ops).map fun x => (x.1, seen x.2.1, x.2.2)
  | [], _, _, _ => rfl
  | op :: ops, t, s, hs => by
    obtain ⟨h1, h2⟩ := stepMG_spec Θ hΘ moved g hst t s hs op
    simp only [observedM, observed, List.map_cons]
    rw [observedM_spec Θ hΘ moved g hst ops _ _ h2, h1, hs.env, h2.env]

/-- **C82** at memory level, for the code as it is and whichever parameters are by reference instead: objects at their addresses, with everything that is allocated and
destroyed in between by others. -/
theorem C82_in_memory (Θ : Empties D W E S) (hΘ : Stateless Θ) (moved : MV D W E S → MV D W E S) {R : W → W → Prop} (hR : Equivalence R) (g : Glue)
    (hst : ConstantsStored Θ g) (w : W) (ops1 ops2 : List (Op D W E S)) (ours : Nat → Bool)
    (hmade : ∀ j, ours j = true → j < (runTrees [] ops1).length)
    (hours : ∀ j t, ours j = true → (runTrees [] ops1)[j]? = some t → ∀ c ∈ t.codes, c.SeesOnly R)
    (hothers : ∀ j t, ours j = false → (runTrees [] (ops1 ++ ops2))[j]? = some t → ∀ c ∈ t.codes, c.Unseen R)
    (hpoke : ∀ f, Op.poke f ∈ ops2 → ∀ w w', R w w' → R (f w) (f w')) :
    let s := (runMG (lang Θ moved) g (MState.init w) ops1).2
    (observedM (lang Θ moved) g s ops2).filter (·.1.concerns ours) = observedM (lang Θ moved) g s (ops2.filter (·.concerns ours)) := by
  intro s
  have hs := (runMG_spec Θ hΘ moved g hst ops1 (MState.init w) (State.init w) (simG_init w)).2
  rw [observedM_spec Θ hΘ moved g hst _ _ _ hs, observedM_spec Θ hΘ moved g hst _ _ _ hs, ← (C82_interference hR g w ops1 ops2 ours hmade hours hothers hpoke).1,
    List.filter_map]
  rfl

/-- The pinned code: whether `x` in the nested program is called, before, between and after calls of `y`, makes no difference to `y`. -/
example : let s := (runMG (lang empties (fun _ => .unit)) .asWritten (MState.init 5) Demo.nested : _ × MState Int Int Nat Nat).2
    (observedM (lang empties (fun _ => .unit)) .asWritten s [.call 0, .call 1, .call 0, .poll 1, .copy 0, .call 2]).filter (·.1.concerns (· == 1)) =
      observedM (lang empties (fun _ => .unit)) .asWritten s [.call 1, .poll 1] := by
  refine C82_in_memory empties empties_stateless (fun _ => .unit) (R := Eq) ⟨fun _ => rfl, Eq.symm, Eq.trans⟩ .asWritten (fun _ h => by simp [Glue.asWritten] at h) 5 Demo.nested _ (· == 1) ?_ ?_ ?_ ?_
  · intro j hj
    rw [eq_of_beq hj]
    exact Nat.one_lt_two
  · rintro j t _ _ c _ st args w _ rfl
    exact ⟨rfl, rfl, rfl⟩
  · intro j t hj ht c hc st args w
    have hts : runTrees [] (Demo.nested ++ [.call 0, .call 1, .call 0, .poll 1, .copy 0, .call 2]) = [Demo.xT, Demo.yT, Demo.xT] := rfl
    rw [hts] at ht
    have hm := List.mem_of_getElem? ht
    have : c ∈ [Demo.halfArg.toFnCode, Demo.rd.toFnCode, Demo.sum.toFnCode, Demo.half.toFnCode] := by
      simp only [List.mem_cons, List.not_mem_nil, or_false] at hm
      rcases hm with rfl | rfl | rfl <;> simp [Demo.xT, Demo.yT, Tree.codes] at hc <;> rcases hc with rfl | rfl | rfl | rfl <;> simp
    simp only [List.mem_cons, List.not_mem_nil, or_false] at this
    rcases this with rfl | rfl | rfl | rfl <;> rfl
  · rintro f _ w _ rfl
    rfl

end LM
end Pigro
