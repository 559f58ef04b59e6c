import Verif.Proofs.LazyEff
/-!
# C67: comparisons and copies that throw
-/
namespace Pigro.Eff
variable {D W E S : Type}

/-! ### Refinement: with pure comparisons and copies this is the model of `Model/Lazy.lean` -/

/-- A comparison that is a pure function, and copies that succeed. -/
def Ops.pure [CxxData D] : Ops D W E where
  ne a b w := (.ok (Val.ne a b), w)
  store _ r w := (.ok (), r, w)

/-- Events of `Model/Lazy.lean`. -/
def Ev.forget : Ev D E S → Option (Pigro.Ev D S)
  | .call k id args seen left _ => some (.call k id args seen left)
  | .ne a b _ => some (.cmp a b)
  | .store .. => none

/-- Environments of `Model/Lazy.lean`. -/
def Env.forget (env : Env D W E S) : Pigro.Env D W S := ⟨env.w, env.log.filterMap Ev.forget⟩

theorem callFun_forget (g : Glue) (f : Fun D W E S) (args : List (Val D)) (env : Env D W E S) :
    f.call g args env.forget = ((callFun g f args env).1, (callFun g f args env).2.1, (callFun g f args env).2.2.forget) := by
  rcases f with u | u <;> simp only [callFun, invoke, Fun.call, UFn.invoke, Env.forget] <;> rcases (u.run u.st _ env.w).1 with e | v <;>
    simp [Ev.forget]

theorem coreTail_forget [CxxData D] (g : Glue) (f : Fun D W E S) (cache : Cache D) (rs : List (LazyRes D)) (env : Env D W E S) :
    Pigro.coreTail g f cache rs env.forget = ((coreTail g .pure f cache rs env).1, (coreTail g .pure f cache rs env).2.1,
      (coreTail g .pure f cache rs env).2.2.1, (coreTail g .pure f cache rs env).2.2.2.forget) := by
  unfold coreTail Pigro.coreTail
  simp only
  split
  · rcases readValues rs with _ | values
    · rfl
    · simp only
      rw [callFun_forget]
      rcases callFun g f values env with ⟨o, f', env1⟩
      rcases o with result | e | _ | _
      · rcases cache with ⟨_ | c⟩ | o
        · simp [compare, assign, Ops.pure, Cache.assign, Cache.deref, Cache.ne, cmpEvents, Env.forget, Ev.forget]
        · simp [compare, assign, Ops.pure, Cache.assign, Cache.deref, Cache.ne, cmpEvents, Env.forget, Ev.forget]
        · simp [compare, assign, Cache.assign, Cache.deref, Cache.ne, cmpEvents, Env.forget]
      all_goals rfl
  · rcases cache.deref with _ | v <;> rfl

mutual
theorem evalN_forget [CxxData D] (g : Glue) (o : Obj D W E S) (env : Env D W E S) :
    Pigro.evalN g o env.forget = ((evalN g .pure o env).1, (evalN g .pure o env).2.1, (evalN g .pure o env).2.2.forget) := by
  match o with
  | .lazyValue v c => rfl
  | .core f cache deps =>
    rw [evalN, Pigro.evalN, evalDeps_forget g deps env]
    rcases evalDeps g .pure deps env with ⟨q, deps', env1⟩
    rcases q with rs | e | _ | _
    · simp only
      rw [coreTail_forget]
    all_goals rfl
  | .unwrapped i => rw [evalN, Pigro.evalN, evalN_forget g i env]
  | .unregularized i => rw [evalN, Pigro.evalN, evalN_forget g i env]
theorem evalDeps_forget [CxxData D] (g : Glue) (ds : List (Obj D W E S)) (env : Env D W E S) :
    Pigro.evalDeps g ds env.forget = ((evalDeps g .pure ds env).1, (evalDeps g .pure ds env).2.1, (evalDeps g .pure ds env).2.2.forget) := by
  match ds with
  | [] => rfl
  | d :: ds =>
    rw [evalDeps, Pigro.evalDeps, evalN_forget g d env]
    rcases evalN g .pure d env with ⟨q, d', env1⟩
    rcases q with r | e | _ | _
    · simp only
      rw [evalDeps_forget]
    all_goals rfl
end

/-- **C67**, the models agree: all that is proved of calls with `Model/Lazy.lean` holds here if comparisons are pure and copies succeed. -/
theorem C67_refines [CxxData D] (g : Glue) (o : Obj D W E S) (env : Env D W E S) :
    Pigro.call0 g o env.forget = ((call0 g .pure o env).1, (call0 g .pure o env).2.1, (call0 g .pure o env).2.2.forget) := by
  match o with
  | .lazyValue v c => rfl
  | .core f cache deps => rfl
  | .unwrapped i =>
    rw [call0, Pigro.call0, evalN_forget]
    rcases evalN g .pure (.unwrapped i) env with ⟨q, d', env1⟩
    rcases q with r | e | _ | _ <;> rfl
  | .unregularized i => rw [call0, Pigro.call0, C67_refines g i env]

/-! ### Exceptions -/

/-- **C67** (an exception leaves the call at once). Whatever functions, comparisons and copies do, for every glue: if any of them throws in a call of a lazy
function, then it is the last thing that was run, and the call is left with that exception. A call that is not left with an exception has seen none. -/
theorem C67_propagates (g : Glue) (ops : Ops D W E) (o : Obj D W E S) (env : Env D W E S) :
    ∃ evs, (call0 g ops o env).2.2.log = env.log ++ evs ∧ Orderly (exc (call0 g ops o env).1) evs := by
  match o with
  | .lazyValue v c => exact ⟨[], by simp [call0], Orderly.nil⟩
  | .core f cache deps => exact ⟨[], by simp [call0], Orderly.nil⟩
  | .unwrapped i =>
    obtain ⟨evs, h1, h2⟩ := evalN_orderly g ops (.unwrapped i) env
    rw [call0]
    rcases h : evalN g ops (.unwrapped i) env with ⟨q, d', env1⟩
    rw [h] at h1 h2
    rcases q with r | e | _ | _
    · refine ⟨evs, h1, ?_⟩
      simp only
      split <;> exact h2
    all_goals exact ⟨evs, h1, h2⟩
  | .unregularized i =>
    obtain ⟨evs, h1, h2⟩ := C67_propagates g ops i env
    rw [call0]
    exact ⟨evs, h1, by rw [exc_map]; exact h2⟩

theorem call0_log (g : Glue) (ops : Ops D W E) (o : Obj D W E S) (w : W) (l : List (Ev D E S)) :
    call0 g ops o ⟨w, l⟩ = ((call0 g ops o ⟨w, []⟩).1, (call0 g ops o ⟨w, []⟩).2.1,
      ⟨(call0 g ops o ⟨w, []⟩).2.2.w, l ++ (call0 g ops o ⟨w, []⟩).2.2.log⟩) := by
  match o with
  | .lazyValue v c => simp [call0]
  | .core f cache deps => simp [call0]
  | .unwrapped i =>
    rw [call0, call0, evalN_log]
    rcases evalN g ops (.unwrapped i) ⟨w, []⟩ with ⟨q, d', env1⟩
    rcases q with r | e | _ | _ <;> rfl
  | .unregularized i => rw [call0, call0, call0_log g ops i w l]

/-- **C67** (caches). However a call ends, every cache in the object holds what it held before or a result that was completely assigned to it in this call,
unless assigning to it failed. In particular, exceptions of functions and comparisons leave no cache in an intermediate state. -/
theorem C67_caches (g : Glue) (ops : Ops D W E) (o : Obj D W E S) (env : Env D W E S) :
    ∃ evs, (call0 g ops o env).2.2.log = env.log ++ evs ∧ Each (Explained evs) (caches o) (caches (call0 g ops o env).2.1) := by
  obtain ⟨w, l⟩ := env
  rw [call0_log]
  refine ⟨_, rfl, ?_⟩
  match o with
  | .lazyValue v c => exact Each.refl (Explained.refl _) _
  | .core f cache deps => exact Each.refl (Explained.refl _) _
  | .unwrapped i =>
    have h := evalN_explained g ops (.unwrapped i) w
    rw [call0]
    rcases h0 : evalN g ops (.unwrapped i) ⟨w, []⟩ with ⟨q, d', env1⟩
    rw [h0] at h
    rcases q with r | e | _ | _ <;> exact h
  | .unregularized i =>
    obtain ⟨evs, h1, h2⟩ := C67_caches g ops i ⟨w, []⟩
    simp only [List.nil_append] at h1
    rw [call0]
    simp only [h1]
    exact keep_caches _ h2

theorem coreTail_own (g : Glue) (ops : Ops D W E) (f : Fun D W E S) (cache : Cache D) (rs : List (LazyRes D)) (env : Env D W E S) (e : E)
    (h : (coreTail g ops f cache rs env).1 = .thrown e) :
    (coreTail g ops f cache rs env).2.2.1 = cache ∨ ∃ c r v, cache = .opt (some c) ∧
      (coreTail g ops f cache rs env).2.2.2.log.getLast? = some (.store (some c) r (.error e)) ∧
      (coreTail g ops f cache rs env).2.2.1 = .opt (some v) := by
  unfold coreTail at h ⊢
  split at h
  · rename_i hch
    rw [if_pos hch]
    split at h
    · cases h
    · rename_i values _
      rcases h0 : callFun g f values env with ⟨o, f', env1⟩
      rw [h0] at h
      rcases o with result | e' | _ | _
      · simp only at h ⊢
        rcases h1 : compare ops cache result env1 with ⟨e' | changed, env2⟩
        · exact .inl rfl
        · rw [h1] at h
          simp only at h ⊢
          rcases cache with old | q
          · simp only [assign] at h ⊢
            rcases h2 : (ops.store old result env2.w).1 with e' | _
            · rw [h2] at h
              cases h
              rcases old with _ | c
              · exact .inl rfl
              · exact .inr ⟨c, result, _, rfl, by simp, rfl⟩
            · rw [h2] at h
              simp [Cache.deref] at h
          · simp [assign, Cache.deref] at h
      all_goals exact .inl rfl
  · rename_i hch
    rw [if_neg hch]
    split <;> exact .inl rfl

/-- **C67** (partial). In full: if a function, a comparison or a copy throws, the exception leaves the call (`C67_propagates`), the value cached before
stays in place, and the next call with the same values of the dependencies evaluates the function again. What is missing is the last (see `C67_stale`).
Here: a node that is left with an exception, whoever has thrown it, keeps its own cache; only if assigning to its engaged cache is what failed, the cache
contains what the assignment left there. -/
theorem C67_own_cache_partial (g : Glue) (ops : Ops D W E) (f : Fun D W E S) (cache : Cache D) (deps : List (Obj D W E S)) (env : Env D W E S) (e : E)
    (h : (evalN g ops (.core f cache deps) env).1 = .thrown e) :
    ∃ f' cache' deps', (evalN g ops (.core f cache deps) env).2.1 = .core f' cache' deps' ∧
      (cache' = cache ∨ ∃ c r v, cache = .opt (some c) ∧
        (evalN g ops (.core f cache deps) env).2.2.log.getLast? = some (.store (some c) r (.error e)) ∧ cache' = .opt (some v)) := by
  rw [evalN] at h ⊢
  rcases h0 : evalDeps g ops deps env with ⟨q, deps', env1⟩
  rw [h0] at h
  rcases q with rs | e' | _ | _
  · simp only at h ⊢
    refine ⟨_, _, _, rfl, ?_⟩
    have := coreTail_own g ops f cache rs env1 e h
    rcases this with h1 | ⟨c, r, v, h1, h2, h3⟩
    · left; rw [h1]; cases g.bindFrontCopies <;> rfl
    · rcases g.bindFrontCopies with _ | _
      · exact .inr ⟨c, r, v, h1, h2, h3⟩
      · exact .inl rfl
  all_goals exact ⟨_, _, _, rfl, .inl rfl⟩

/-- The identity and kind of the user's function in a node. -/
def funId : Fun D W E S → Kind × Nat
  | .regularized u => (.fn, u.id)
  | .wrapDep u => (.dep, u.id)

theorem coreTail_invokes (g : Glue) (ops : Ops D W E) (f : Fun D W E S) (cache : Cache D) (rs : List (LazyRes D)) (w : W)
    (hc : cache.engaged = false) (r : LazyRes D) (h : (coreTail g ops f cache rs ⟨w, []⟩).1 = .ok r) :
    ∃ args seen left v, .call (funId f).1 (funId f).2 args seen left (.ok v) ∈ (coreTail g ops f cache rs ⟨w, []⟩).2.2.2.log := by
  unfold coreTail at h ⊢
  simp only [hc, Bool.not_false, Bool.true_or, if_true] at h ⊢
  rcases hv : readValues rs with _ | values
  · rw [hv] at h; cases h
  · rw [hv] at h
    simp only at h ⊢
    have hcall : ∀ v, (callFun g f values (⟨w, []⟩ : Env D W E S)).1 = .ok v → ∃ args seen left v,
        .call (funId f).1 (funId f).2 args seen left (.ok v) ∈ (callFun g f values (⟨w, []⟩ : Env D W E S)).2.2.log := by
      intro v hv
      rcases f with u | u <;> simp only [callFun, invoke, funId] at hv ⊢ <;> rcases hr : (u.run u.st _ w).1 with e | x <;> rw [hr] at hv <;>
        simp at hv ⊢
    rcases h0 : callFun g f values (⟨w, []⟩ : Env D W E S) with ⟨o, f', ⟨w1, l1⟩⟩
    rw [h0] at h hcall
    rcases o with result | e' | _ | _
    · obtain ⟨args, seen, left, v, hm⟩ := hcall result rfl
      refine ⟨args, seen, left, v, ?_⟩
      clear h
      simp only at hm ⊢
      rw [compare_log ops cache result w1 l1]
      rcases compare ops cache result (⟨w1, []⟩ : Env D W E S) with ⟨_ | changed, ⟨w2, l2⟩⟩
      · exact List.mem_append_left _ hm
      · simp only
        rw [assign_log ops cache result w2 (l1 ++ l2)]
        rcases assign ops cache result (⟨w2, []⟩ : Env D W E S) with ⟨_ | _, cache', ⟨w3, l3⟩⟩
        · exact List.mem_append_left _ (List.mem_append_left _ hm)
        · simp only
          split <;> exact List.mem_append_left _ (List.mem_append_left _ hm)
    all_goals cases h

/-- **C67** (partial as above). The next call does evaluate the function again if the node had no value before, that is, if it has failed from the start: if it
returns at all, the function has been invoked in it, and returned. -/
theorem C67_retry_partial (g : Glue) (ops : Ops D W E) (f : Fun D W E S) (cache : Cache D) (deps : List (Obj D W E S)) (env : Env D W E S) (e : E)
    (hc : cache.engaged = false) (h : (evalN g ops (.core f cache deps) env).1 = .thrown e) (w : W) (r : LazyRes D)
    (h' : (evalN g ops (evalN g ops (.core f cache deps) env).2.1 ⟨w, []⟩).1 = .ok r) :
    ∃ args seen left v, .call (funId f).1 (funId f).2 args seen left (.ok v) ∈ (evalN g ops (evalN g ops (.core f cache deps) env).2.1 ⟨w, []⟩).2.2.log := by
  obtain ⟨f', cache', deps', h1, h2⟩ := C67_own_cache_partial g ops f cache deps env e h
  have hf : funId f' = funId f := by
    have hcf : ∀ values env1, funId (callFun g f values env1).2.1 = funId f := by
      intro values env1
      rcases f with u | u <;> simp only [callFun, invoke] <;> rcases (u.run u.st _ env1.w).1 with e | v <;> simp only [funId]
      · cases g.regParamByValue <;> rfl
      · cases g.regParamByValue <;> rfl
      · cases g.wrapParamByValue <;> rfl
      · cases g.wrapParamByValue <;> rfl
    have hct : ∀ rs env1, funId (coreTail g ops f cache rs env1).2.1 = funId f := by
      intro rs env1
      unfold coreTail
      split
      · split
        · rfl
        · rename_i values _
          have := hcf values env1
          split
          · rename_i h3; rw [h3] at this
            split
            · exact this
            · split
              · exact this
              · split <;> exact this
          · rename_i h3; rw [h3] at this; exact this
      · split <;> rfl
    rw [evalN] at h1
    rcases h0 : evalDeps g ops deps env with ⟨q, deps1, env1⟩
    rw [h0] at h1
    rcases q with rs | e' | _ | _
    · simp only [Obj.core.injEq] at h1
      rw [← h1.1]
      have := hct rs env1
      cases g.coreParamsByValue
      · exact this
      · rfl
    all_goals
      simp only [Obj.core.injEq] at h1
      rw [h1.1]
  have hc' : cache' = cache := by
    rcases h2 with h2 | ⟨c, r, v, h2, -⟩
    · exact h2
    · rw [h2] at hc; simp [Cache.engaged] at hc
  subst hc'
  rw [h1] at h' ⊢
  rw [evalN] at h' ⊢
  rcases h0 : evalDeps g ops deps' ⟨w, []⟩ with ⟨q, deps1, ⟨w1, l1⟩⟩
  rw [h0] at h'
  rcases q with rs | e' | _ | _
  · simp only at h' ⊢
    rw [coreTail_log] at h' ⊢
    obtain ⟨args, seen, left, v, hm⟩ := coreTail_invokes g ops f' cache' rs w1 hc r h'
    rw [hf] at hm
    exact ⟨args, seen, left, v, List.mem_append_right _ hm⟩
  all_goals cases h'

/-! ### Staleness, and examples -/

/-- `W` is a variable of the program; exceptions are unit. -/
instance : CxxData Nat := ⟨fun a b => a != b, 0⟩

/-- A comparison that throws for results from 10 on; copies of numbers from 20 on throw, leaving 99. -/
def exOps : Ops Nat Nat Unit where
  ne a b w := match a, b with
    | .data a, .data b => if a < 10 then (.ok (a != b), w) else (.error (), w)
    | _, _ => (.ok true, w)
  store _ r w := match r with
    | .data a => if a < 20 then (.ok (), r, w) else (.error (), .data 99, w)
    | _ => (.ok (), r, w)

/-- `[&] { return x; }` -/
def exRead : UFn Nat Nat Unit Unit := { id := 0, ret := .val, run := fun s _ w => (.ok (.data w), s, w), st := () }
/-- `[](int x) { return 10 + x; }` -/
def exAdd : UFn Nat Nat Unit Unit :=
  { id := 1, ret := .val, run := fun s a w => (match a with
    | [.data x] => .ok (.data (10 + x))
    | _ => .error (), s, w), st := () }
/-- `lazy([](int x) { return 10 + x; }, [&] { return x; })` -/
def exObj : Obj Nat Nat Unit Unit :=
  .unregularized (.unwrapped (detailLazy (.regularized exAdd) [detailLazy (.wrapDep exRead) [.lazyValue (.data 0) true]]))

/-- Three calls, with given values of the variable. -/
def exThree (g : Glue) (w1 w2 w3 : Nat) : List (Out Unit (Option (Val Nat))) :=
  let r1 := call0 g exOps exObj ⟨w1, []⟩
  let r2 := call0 g exOps r1.2.1 ⟨w2, []⟩
  let r3 := call0 g exOps r2.2.1 ⟨w3, []⟩
  [r1.1, r2.1, r3.1]

/-- **C67** is false where caches are kept: `x` is 0, then 1. The first call returns 10, in the second the comparison throws, and the third, with nothing
changed any more, returns 10 instead of 11 or another exception. -/
theorem C67_stale : exThree .retained 0 1 1 = [.ok (some (.data 10)), .thrown (), .ok (some (.data 10))] := by rfl

/-- The second call of `C67_stale` in the theorems: the dependency was invoked, compared and stored, then the function invoked and its result compared. -/
example : let o := (call0 .retained exOps exObj ⟨0, []⟩).2.1
    (call0 .retained exOps o ⟨1, []⟩).2.2.log =
      [.call .dep 0 [] () () (.ok (.data 1)), .ne (.data 0) (.data 1) (.ok true), .store (some (.data 0)) (.data 1) (.ok ()),
        .call .fn 1 [.data 1] () () (.ok (.data 11)), .ne (.data 10) (.data 11) (.error ())] ∧
    caches o = [.opt (some (.data 10)), .opt (some (.data 0))] ∧
    caches (call0 .retained exOps o ⟨1, []⟩).2.1 = [.opt (some (.data 10)), .opt (some (.data 1))] := by
  refine ⟨rfl, rfl, rfl⟩

/-- `C67_propagates` on it. -/
example : ∃ evs, (call0 .retained exOps (call0 .retained exOps exObj ⟨0, []⟩).2.1 ⟨1, []⟩).2.2.log = [] ++ evs ∧
    Orderly (some ()) evs :=
  C67_propagates .retained exOps _ _

/-- `C67_own_cache_partial` with a failing assignment to an engaged cache: the cached 5 becomes 99. -/
example : let o : Obj Nat Nat Unit Unit := .core (.wrapDep exRead) (.opt (some (.data 5))) [.lazyValue (.data 0) true]
    let r := evalN .retained exOps o ⟨25, []⟩
    r.1 = .thrown () ∧ caches r.2.1 = [.opt (some (.data 99))] := ⟨rfl, rfl⟩

/-- `C67_retry_partial`: copying the first result fails; the next call invokes the function again. -/
example : let o : Obj Nat Nat Unit Unit := detailLazy (.wrapDep exRead) [.lazyValue (.data 0) true]
    let o' := (evalN .retained exOps o ⟨25, []⟩).2.1
    ∃ args seen left v, .call .dep 0 args seen left (.ok v) ∈ (evalN .retained exOps o' ⟨5, []⟩).2.2.log :=
  C67_retry_partial .retained exOps (.wrapDep exRead) (.opt none) _ ⟨25, []⟩ () rfl rfl 5 _ rfl

/-- `C67_refines` on a call of the object above. -/
example : Pigro.call0 .retained exObj (⟨3, []⟩ : Env Nat Nat Unit Unit).forget =
    ((.ok (some (.data 13)) : Out Unit _), (call0 .retained .pure exObj ⟨3, []⟩).2.1, (call0 .retained .pure exObj ⟨3, []⟩).2.2.forget) :=
  C67_refines .retained exObj ⟨3, []⟩

end Pigro.Eff
