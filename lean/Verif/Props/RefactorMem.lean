import Verif.Proofs.RefactorSeen
import Verif.Props.Refactor
import Verif.Props.LazyGlue
/-!
# C97, with dangling results left alone, and at memory level
-/
namespace Pigro.Rfc
open LM (seen)
variable {D W E S : Type} [CxxData D]

/-- **C97**, where what dangling results refer to is of no interest: if each variable of two programs shows the same, in all tests of it alone, so do the programs, whatever follows.
For every glue; under the pinned one this says more than `C97_context`, as polls return nothing but dangling results. -/
theorem C97_seen (g : Glue) (care : Ev D S → Bool) (p q : List (Op D W E S)) (w w' : W)
    (h : ∀ i (ts : List (Test W)), LooksSeen care (run g (run g (State.init w) p).2 (ts.map (Test.on i))) (run g (run g (State.init w') q).2 (ts.map (Test.on i))))
    (ops : List (Op D W E S)) : LooksSeen care (run g (run g (State.init w) p).2 ops) (run g (run g (State.init w') q).2 ops) := by
  obtain ⟨h1, h2⟩ := Shown.vars_of_tests g care (run_lzy g p (s := State.init w) (by simp [State.init])) (run_lzy g q (s := State.init w') (by simp [State.init])) h
  exact Shown.run_cong g care ops h1 h2

namespace Demo97

/-- Returns a number. -/
def constant (n : Int) : UFn Int Int Nat Nat := ⟨⟨1, .val, fun s _ w => (.ok (.data n), s, w)⟩, 0⟩

/-- `lazy(constant n)` -/
def var (n : Int) : Obj Int Int Nat Nat := lzy (.regularized (constant n)) (Cache.empty .val) []

theorem polled (n : Int) (env : Env Int Int Nat) : ∃ l, evalN .asWritten (var n) env = (.ok ⟨.data n, true, false⟩, var n, ⟨env.w, l⟩) := ⟨_, rfl⟩

theorem called (n : Int) (env : Env Int Int Nat) : ∃ l, call0 .asWritten (var n) env = (.ub, var n, ⟨env.w, l⟩) := ⟨_, rfl⟩

/-- With the pinned code, functions that return different numbers show the same. -/
theorem nothing_seen (m n : Int) (i : Nat) : ∀ (ts : List (Test Int)) (s t : State Int Int Nat Nat), s.vars = [var m] → t.vars = [var n] → s.env.w = t.env.w →
    LooksSeen (fun _ => false) (run .asWritten s (ts.map (Test.on i))) (run .asWritten t (ts.map (Test.on i)))
  | [], s, t, _, _, hw => ⟨rfl, hw, by
    have h : ∀ l : List (Ev Int Nat), l.filter (fun _ => false) = [] := fun l => List.filter_eq_nil_iff.2 (by simp)
    rw [h, h]⟩
  | x :: ts, ⟨_, env⟩, ⟨_, env'⟩, rfl, rfl, hw => by
    have key : seen (step .asWritten ⟨[var m], env⟩ (x.on i)).1 = seen (step .asWritten ⟨[var n], env'⟩ (x.on i)).1 ∧
        (step .asWritten ⟨[var m], env⟩ (x.on i)).2.vars = [var m] ∧ (step .asWritten ⟨[var n], env'⟩ (x.on i)).2.vars = [var n] ∧
        (step .asWritten ⟨[var m], env⟩ (x.on i)).2.env.w = (step .asWritten ⟨[var n], env'⟩ (x.on i)).2.env.w := by
      replace hw : env.w = env'.w := hw
      obtain ⟨l1, h1⟩ := polled m env
      obtain ⟨l2, h2⟩ := polled n env'
      obtain ⟨l3, h3⟩ := called m env
      obtain ⟨l4, h4⟩ := called n env'
      cases x with
      | poke f => simp [Test.on, step, seen, hw]
      | call =>
        rcases i with _ | i
        · simp [Test.on, step, h3, h4, seen, hw]
        · simp [Test.on, step, seen, hw]
      | poll =>
        rcases i with _ | i
        · simp [Test.on, step, h1, h2, seen, hw, Out.map]
        · simp [Test.on, step, seen, hw]
    obtain ⟨k1, k2, k3, k4⟩ := key
    obtain ⟨j1, j2, j3⟩ := nothing_seen m n i ts _ _ k2 k3 k4
    exact ⟨by simp only [List.map_cons, run, k1, j1], j2, j3⟩

/-- ... so nothing made of them shows a difference either. Both are polled to results that dangle, with different numbers in them: a case that `C97_context` does not cover. -/
example (ops : List (Op Int Int Nat Nat)) (w : Int) :
    LooksSeen (fun _ => false) (run .asWritten (run .asWritten (State.init w) [.mk (constant 1) []]).2 ops) (run .asWritten (run .asWritten (State.init w) [.mk (constant 2) []]).2 ops) :=
  C97_seen .asWritten _ [.mk (constant 1) []] [.mk (constant 2) []] w w (fun i ts => nothing_seen 1 2 i ts _ _ rfl rfl rfl) ops

/-- The answers themselves are different, though nobody may look. -/
example : (run .asWritten (State.init (0 : Int)) [.mk (constant 1) [], .poll 0]).1 = [.unit, .polled (.ok ⟨.data 1, true, false⟩)] ∧
    (run .asWritten (State.init (0 : Int)) [.mk (constant 2) [], .poll 0]).1 = [.unit, .polled (.ok ⟨.data 2, true, false⟩)] := ⟨rfl, rfl⟩

end Demo97

end Pigro.Rfc

namespace Pigro.LM
open Rfc (Test)
variable {D W E S : Type} [CxxData D]

/-- The answers to `ops` after `p`, the world and the events of interest afterwards, at memory level. -/
def shown (Θ : Empties D W E S) (moved : MV D W E S → MV D W E S) (g : Glue) (care : Ev D S → Bool) (w : W) (p ops : List (Op D W E S)) : List (Seen D E) × W × List (Ev D S) :=
  let r := runMG (lang Θ moved) g (MState.init w) (p ++ ops)
  (r.1.drop p.length, r.2.mem.world.w, r.2.mem.world.log.filter care)

theorem run_length (g : Glue) : ∀ (ops : List (Op D W E S)) (s : State D W E S), (run g s ops).1.length = ops.length
  | [], _ => rfl
  | op :: ops, s => by simp only [run, List.length_cons, run_length g ops]

/-- What is shown at memory level is what `run` says. -/
theorem shown_eq (Θ : Empties D W E S) (hΘ : Stateless Θ) (moved : MV D W E S → MV D W E S) (g : Glue) (hst : ConstantsStored Θ g) (care : Ev D S → Bool) (w : W) (p ops : List (Op D W E S)) :
    shown Θ moved g care w p ops = ((run g (run g (State.init w) p).2 ops).1.map seen, (run g (run g (State.init w) p).2 ops).2.env.w,
      (run g (run g (State.init w) p).2 ops).2.env.log.filter care) := by
  obtain ⟨h1, h2⟩ := C80_composed Θ hΘ moved g hst w (p ++ ops)
  simp only [shown, h1, h2, run_append]
  rw [List.map_append, List.drop_left' (by rw [List.length_map, run_length])]

/-- **C97** at memory level. Two programs, compared variable by variable, with all objects, parameters and temporaries in memory: if calling variable `i`, calling it with `nullptr`, and
changing the world in between, as often and in whatever order, shows the same, for every `i`, then no continuation shows a difference between the programs. -/
theorem C97_in_memory (Θ : Empties D W E S) (hΘ : Stateless Θ) (moved : MV D W E S → MV D W E S) (g : Glue) (hst : ConstantsStored Θ g) (care : Ev D S → Bool)
    (p q : List (Op D W E S)) (w w' : W)
    (h : ∀ i (ts : List (Test W)), shown Θ moved g care w p (ts.map (Test.on i)) = shown Θ moved g care w' q (ts.map (Test.on i)))
    (ops : List (Op D W E S)) : shown Θ moved g care w p ops = shown Θ moved g care w' q ops := by
  simp only [shown_eq Θ hΘ moved g hst, Prod.mk.injEq] at h ⊢
  exact Rfc.C97_seen g care p q w w' h ops

open Rfc.Demo97 in
/-- The two programs of the example, at memory level, as the code is pinned, whichever callables are of empty type. -/
example (Θ : Empties Int Int Nat Nat) (hΘ : Stateless Θ) (moved : MV Int Int Nat Nat → MV Int Int Nat Nat) (ops : List (Op Int Int Nat Nat)) (w : Int) :
    shown Θ moved .asWritten (fun _ => false) w [.mk (constant 1) []] ops = shown Θ moved .asWritten (fun _ => false) w [.mk (constant 2) []] ops :=
  have hst : ConstantsStored Θ .asWritten := by intro _ h; cases h
  C97_in_memory Θ hΘ moved .asWritten hst _ _ _ w w (fun i ts => by
    simp only [shown_eq Θ hΘ moved .asWritten hst, Prod.mk.injEq]
    exact nothing_seen 1 2 i ts _ _ rfl rfl rfl) ops

end Pigro.LM
