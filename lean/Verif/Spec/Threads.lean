import Verif.Model.Threads
import Verif.Spec.Eager
/-!
# Specification: data races, and what a thread would do alone
-/
namespace Pigro.Thr
variable {D W E S α ι : Type}

/-- The next step reads or writes `l`. -/
def Prog.at (l : Loc) : Prog D W E S α → Prop
  | .rd l' _ => l' = l
  | .wr l' _ _ => l' = l
  | _ => False

/-- The next step writes `l`. -/
def Prog.writes (l : Loc) : Prog D W E S α → Prop
  | .wr l' _ _ => l' = l
  | _ => False

/-- Two threads are about to access the same location, and one of them to write it: in C++, a data race, hence undefined behaviour. -/
def Race (s : Sys D W E S ι α) : Prop := ∃ i j l, i ≠ j ∧ (s.thr i).at l ∧ (s.thr j).writes l

/-- No order of steps leads to a data race. -/
def RaceFree [DecidableEq ι] (s : Sys D W E S ι α) : Prop := ∀ is, ¬ Race (exec s is)

/-- A program alone after `n` steps. -/
def alone (m : Mem D) (env : Env D W S) (P : Prog D W E S α) : Nat → Mem D × Env D W S × Prog D W E S α
  | 0 => (m, env, P)
  | n + 1 => advance (alone m env P n)

/-- What it returns, memory and world then. -/
def Prog.run (m : Mem D) (env : Env D W S) : Prog D W E S α → α × Mem D × Env D W S
  | .ret a => (a, m, env)
  | .rd l k => (k (m l)).run m env
  | .wr l c k => k.run (m.set l c) env
  | .call kind u args k => (k (u.invoke kind args env).1).run m (u.invoke kind args env).2.2
  | .cmp a b k => k.run m ⟨env.w, env.log ++ [.cmp a b]⟩

/-- Whatever the order in which threads do their steps: thread `i` returns `a`, as soon as it has done enough of them, and nothing else. -/
def Returns [DecidableEq ι] (s : Sys D W E S ι α) (i : ι) (a : α) : Prop :=
  (∃ N, ∀ is : List ι, N ≤ is.count i → (exec s is).thr i = .ret a) ∧ ∀ (is : List ι) b, (exec s is).thr i = .ret b → b = a

/-- Some step of it writes memory. -/
def Writes (m : Mem D) (env : Env D W S) (P : Prog D W E S α) : Prop := ∃ n l, (alone m env P n).2.2.writes l

mutual
/-- The object of which the caches are in memory. -/
def load (m : Mem D) : Loc → Obj D W E S → Obj D W E S
  | _, .lazyValue v c => .lazyValue v c
  | p, .core f _ deps => .core f (m p) (loadDeps m p 0 deps)
  | p, .unwrapped inner => .unwrapped (load m p inner)
  | p, .unregularized inner => .unregularized (load m p inner)
/-- Its dependencies. -/
def loadDeps (m : Mem D) : Loc → Nat → List (Obj D W E S) → List (Obj D W E S)
  | _, _, [] => []
  | p, i, d :: ds => load m (i :: p) d :: loadDeps m p (i + 1) ds
end

/-- The function in a node. -/
def fnOf : Fun D W E S → UFn D W E S
  | .regularized u => u
  | .wrapDep u => u

/-- All functions in an object. -/
def fns : Obj D W E S → List (UFn D W E S)
  | .lazyValue _ _ => []
  | .core f _ deps => fnOf f :: (deps.map fns).flatten
  | .unwrapped inner => fns inner
  | .unregularized inner => fns inner

/-- The function does not change its own state (as if its call operator were const). -/
def Const (u : UFn D W E S) : Prop := ∀ args w, (u.run u.st args w).2.1 = u.st

/-- The function does not change the world. -/
def Pure (u : UFn D W E S) : Prop := ∀ args w, (u.run u.st args w).2.2 = w

/-- There is a value in every cache, and nothing that reports a change in every call: no plain functions. -/
def Settled : Obj D W E S → Prop
  | .lazyValue _ c => c = false
  | .core _ c deps => c.engaged = true ∧ ∀ d ∈ deps, Settled d
  | .unwrapped inner => Settled inner
  | .unregularized inner => Settled inner

/-- A plain function (or anything else that reports a change in every call) is somewhere among its dependencies. -/
def Polls : Obj D W E S → Prop
  | .lazyValue _ _ => False
  | .core _ _ deps => (∃ v, .lazyValue v true ∈ deps) ∨ ∃ d, ∃ _ : d ∈ deps, Polls d
  | .unwrapped inner => Polls inner
  | .unregularized inner => Polls inner

end Pigro.Thr
