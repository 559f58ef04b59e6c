import Verif.Spec.Compare
import Verif.Proofs.LazyMore
/-!
# Comparisons of one call
-/
namespace Pigro
variable {D W E S : Type} [CxxData D]

theorem coreTail_nodeLog (g : Glue) (f : Fun D W E S) (cache : Cache D) (ds : List (Obj D W E S)) (rs : List (LazyRes D)) (env : Env D W S)
    (l : List (Ev D S)) (hl : DepsLog ds l) :
    ∃ l', (coreTail g f cache rs env).2.2.2.log = env.log ++ l' ∧ NodeLog (.core f cache ds) (l ++ l') := by
  have idle : NodeLog (.core f cache ds) (l ++ []) := by rw [List.append_nil]; exact .idle f cache hl
  unfold coreTail
  dsimp only
  split
  · split
    · exact ⟨[], by simp, idle⟩
    · rename_i values _
      obtain ⟨args, hcall⟩ : ∃ args, f.call g values env =
          ((match (f.user.2.run f.user.2.st args env.w).1 with
            | .ok v => Out.ok (f.user.2.ret.regularize v)
            | .error e => .thrown e), (f.call g values env).2.1,
            ⟨(f.user.2.run f.user.2.st args env.w).2.2, env.log ++ [.call f.user.1 f.user.2.id args f.user.2.st
              (f.user.2.run f.user.2.st args env.w).2.1]⟩) := by
        cases f with
        | regularized u =>
          refine ⟨values, ?_⟩
          simp only [Fun.call, UFn.invoke, Fun.user]
          split <;> rename_i h <;> simp only [Prod.mk.injEq] at h <;> obtain ⟨h1, rfl, rfl⟩ := h <;> simp only [h1]
        | wrapDep u =>
          refine ⟨[], ?_⟩
          simp only [Fun.call, UFn.invoke, Fun.user]
          split <;> rename_i h <;> simp only [Prod.mk.injEq] at h <;> obtain ⟨h1, rfl, rfl⟩ := h <;> simp only [h1]
      rw [hcall]
      rcases hrun : f.user.2.run f.user.2.st args env.w with ⟨q, st, w'⟩
      cases q with
      | error x => exact ⟨_, rfl, .threw f cache args _ _ x st hl hrun⟩
      | ok v =>
        have hd : ∃ x, (cache.assign (f.user.2.ret.regularize v)).deref = some x := by
          cases cache <;> exact ⟨_, rfl⟩
        obtain ⟨x, hd⟩ := hd
        simp only [hd]
        cases hc : cache.comparable with
        | none =>
          have : (cmpEvents cache (f.user.2.ret.regularize v) : List (Ev D S)) = [] := by
            rcases cache with (_ | a) | b <;> simp [cmpEvents, Cache.comparable] at hc ⊢
          refine ⟨_, by rw [this, List.append_nil], ?_⟩
          exact .first f cache args _ _ v st hl hrun hc
        | some old =>
          refine ⟨_, by simp only [List.append_assoc]; rfl, ?_⟩
          have : (cmpEvents cache (f.user.2.ret.regularize v) : List (Ev D S)) = [.cmp old (f.user.2.ret.regularize v)] := by
            rcases cache with (_ | a) | b <;> simp [cmpEvents, Cache.comparable] at hc ⊢
            exact hc
          rw [this]
          exact .again f cache args _ _ v old st hl hrun hc
  · split <;> exact ⟨[], by simp, idle⟩

mutual
theorem evalN_nodeLog (g : Glue) (o : Obj D W E S) (env : Env D W S) :
    ∃ l, (evalN g o env).2.2.log = env.log ++ l ∧ NodeLog o l := by
  match o with
  | .lazyValue v c => exact ⟨[], by simp [evalN], .value v c⟩
  | .core f cache ds =>
    obtain ⟨l, h1, h2⟩ := evalDeps_nodeLog g ds env
    rcases he : evalDeps g ds env with ⟨q, ds', env1⟩
    rw [he] at h1
    by_cases hq : q.isOk
    · obtain ⟨rs, rfl⟩ : ∃ rs, q = .ok rs := by cases q <;> simp_all [Out.isOk]
      rw [evalN_core_ok g f cache ds env he]
      obtain ⟨l', h3, h4⟩ := coreTail_nodeLog g f cache ds rs env1 l h2
      exact ⟨l ++ l', by simp only at h1; rw [h3, h1, List.append_assoc], h4⟩
    · rw [evalN_core_fail g f cache ds env he (by simpa using hq)]
      exact ⟨l, h1, .idle f cache h2⟩
  | .unwrapped i =>
    obtain ⟨l, h1, h2⟩ := evalN_nodeLog g i env
    exact ⟨l, by rw [evalN_unwrapped]; exact h1, .unwrapped h2⟩
  | .unregularized i =>
    obtain ⟨l, h1, h2⟩ := evalN_nodeLog g i env
    exact ⟨l, by rw [evalN_unregularized]; exact h1, .unregularized h2⟩
theorem evalDeps_nodeLog (g : Glue) (ds : List (Obj D W E S)) (env : Env D W S) :
    ∃ l, (evalDeps g ds env).2.2.log = env.log ++ l ∧ DepsLog ds l := by
  match ds with
  | [] => exact ⟨[], by simp [evalDeps], .stop []⟩
  | d :: ds =>
    obtain ⟨l, h1, h2⟩ := evalN_nodeLog g d env
    rcases he : evalN g d env with ⟨q, d', env1⟩
    rw [he] at h1
    cases q with
    | ok r =>
      obtain ⟨l', h3, h4⟩ := evalDeps_nodeLog g ds env1
      refine ⟨l ++ l', ?_, .cons h2 h4⟩
      simp only [evalDeps, he]
      simp only at h1
      rw [h3, h1, List.append_assoc]
    | _ => exact ⟨l, by simp only [evalDeps, he]; exact h1, by simpa using DepsLog.cons h2 (.stop ds)⟩
end

end Pigro
