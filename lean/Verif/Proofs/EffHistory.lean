import Verif.Model.EffHistory
import Verif.Spec.EffHistory
import Verif.Proofs.LazyEff
import Verif.Proofs.Throwing
/-!
# Freshness over histories with comparisons and copies that may throw
-/
namespace Pigro.Eff
variable {D W E S O : Type}

/-! ### Equations -/

theorem evalN_core_ok (g : Glue) (ops : Ops D W E) (f : Fun D W E S) (cache : Cache D) (deps : List (Obj D W E S))
    (env : Env D W E S) {rs deps' env1} (h : evalDeps g ops deps env = (.ok rs, deps', env1)) :
    evalN g ops (.core f cache deps) env =
      ((coreTail g ops f cache rs env1).1,
       .core (keep g.coreParamsByValue f (coreTail g ops f cache rs env1).2.1)
        (keep g.bindFrontCopies cache (coreTail g ops f cache rs env1).2.2.1)
        (keep g.coreParamsByValue deps deps'), (coreTail g ops f cache rs env1).2.2.2) := by
  rw [evalN, h]

theorem evalN_core_fail (g : Glue) (ops : Ops D W E) (f : Fun D W E S) (cache : Cache D) (deps : List (Obj D W E S))
    (env : Env D W E S) {o deps' env1} (h : evalDeps g ops deps env = (o, deps', env1)) (ho : o.isOk = false) :
    evalN g ops (.core f cache deps) env =
      (o.map (fun _ => ⟨.rvoid, false, false⟩), .core f cache (keep g.coreParamsByValue deps deps'), env1) := by
  rw [evalN, h]
  cases o <;> simp_all [Out.isOk]

theorem evalN_facade (g : Glue) (ops : Ops D W E) (i : Obj D W E S) (env : Env D W E S) :
    evalN g ops (.unregularized (.unwrapped i)) env =
      ((evalN g ops i env).1.map (LazyRes.through (g.resultByRef && (g.facadeParamByValue || g.unwrapParamByValue))),
       .unregularized (.unwrapped (keep (g.facadeParamByValue || g.unwrapParamByValue) i (evalN g ops i env).2.1)), (evalN g ops i env).2.2) := by
  rw [evalN, evalN]
  rcases h : evalN g ops i env with ⟨o, i', env'⟩
  cases o <;> cases g.facadeParamByValue <;> cases g.unwrapParamByValue <;> cases g.resultByRef <;> simp [Out.map, LazyRes.through]

theorem call0_facade (g : Glue) (ops : Ops D W E) (i : Obj D W E S) (env : Env D W E S) :
    call0 g ops (.unregularized (.unwrapped i)) env =
      ((match (evalN g ops i env).1 with
        | .ok r => if r.live && !(g.resultByRef && g.unwrapParamByValue) then .ok (if i.valueIsRV then none else some r.value) else .ub
        | .thrown e => .thrown e
        | .ub => .ub
        | .illFormed => .illFormed),
       .unregularized (.unwrapped (keep (g.facadeParamByValue || g.unwrapParamByValue) i (evalN g ops i env).2.1)),
       (evalN g ops i env).2.2) := by
  rw [call0, call0, evalN]
  rcases h : evalN g ops i env with ⟨o, i', env'⟩
  have hk : keep g.facadeParamByValue (Obj.unwrapped i) (.unwrapped (keep g.unwrapParamByValue i i')) =
      .unwrapped (keep (g.facadeParamByValue || g.unwrapParamByValue) i i') := by
    cases g.facadeParamByValue <;> cases g.unwrapParamByValue <;> rfl
  cases o with
  | ok r =>
    simp only [Out.map, LazyRes.through, hk, Obj.valueIsRV]
    cases hl : (r.live && !(g.resultByRef && g.unwrapParamByValue))
    · simp
    · simp only [if_true]; rfl
  | _ => simp [Out.map, hk]

/-- What calling the function of a node does. -/
theorem callFun_user (g : Glue) (f : Fun D W E S) (args : List (Val D)) (env : Env D W E S) :
    ∃ f' env' l, env'.log = env.log ++ l ∧ (∀ u, f = .regularized u → (∃ u', f' = .regularized u' ∧ u'.toFnCode = u.toFnCode) ∧ env'.w = (u.run u.st args env.w).2.2 ∧
        callFun g f args env = ((match (u.run u.st args env.w).1 with
          | .ok v => Out.ok (u.ret.regularize v)
          | .error e => .thrown e), f', env')) ∧
      (∀ u, f = .wrapDep u → (∃ u', f' = .wrapDep u' ∧ u'.toFnCode = u.toFnCode) ∧ env'.w = (u.run u.st [] env.w).2.2 ∧
        callFun g f args env = ((match (u.run u.st [] env.w).1 with
          | .ok v => Out.ok (u.ret.regularize v)
          | .error e => .thrown e), f', env')) := by
  cases f with
  | regularized u =>
    refine ⟨.regularized (keep g.regParamByValue u (invoke u .fn args env).2.1), (invoke u .fn args env).2.2, _, rfl, ?_, by simp⟩
    intro u' hu
    cases hu
    refine ⟨⟨_, rfl, keep_code _ _ _ rfl⟩, rfl, ?_⟩
    simp only [callFun, invoke]
    split <;> rename_i h <;> simp only [Prod.mk.injEq] at h <;> obtain ⟨h1, rfl, rfl⟩ := h <;> simp only [h1]
  | wrapDep u =>
    refine ⟨.wrapDep (keep g.wrapParamByValue u (invoke u .dep [] env).2.1), (invoke u .dep [] env).2.2, _, rfl, by simp, ?_⟩
    intro u' hu
    cases hu
    refine ⟨⟨_, rfl, keep_code _ _ _ rfl⟩, rfl, ?_⟩
    simp only [callFun, invoke]
    split <;> rename_i h <;> simp only [Prod.mk.injEq] at h <;> obtain ⟨h1, rfl, rfl⟩ := h <;> simp only [h1]

/-! ### Shape -/

/-- The function stays one of the same code, the cache one of the same type. -/
theorem coreTail_kind (g : Glue) (ops : Ops D W E) (f : Fun D W E S) (cache : Cache D) (rs : List (LazyRes D)) (env : Env D W E S) :
    ((∀ u, f = .regularized u → ∃ u', (coreTail g ops f cache rs env).2.1 = .regularized u' ∧ u'.toFnCode = u.toFnCode) ∧
      ∀ u, f = .wrapDep u → ∃ u', (coreTail g ops f cache rs env).2.1 = .wrapDep u' ∧ u'.toFnCode = u.toFnCode) ∧
    ∀ r, cache.Fits r → (coreTail g ops f cache rs env).2.2.1.Fits r := by
  have same : ∀ f', f' = f → (∀ u, f = .regularized u → ∃ u', f' = .regularized u' ∧ u'.toFnCode = u.toFnCode) ∧
      ∀ u, f = .wrapDep u → ∃ u', f' = .wrapDep u' ∧ u'.toFnCode = u.toFnCode := by
    rintro f' rfl
    exact ⟨fun u h => ⟨u, h, rfl⟩, fun u h => ⟨u, h, rfl⟩⟩
  unfold coreTail
  split
  · split
    · exact ⟨same _ rfl, fun _ h => h⟩
    · rename_i values _
      obtain ⟨f', env', l, -, h1, h2⟩ := callFun_user g f values env
      have kind : (∀ u, f = .regularized u → ∃ u', (callFun g f values env).2.1 = .regularized u' ∧ u'.toFnCode = u.toFnCode) ∧
          ∀ u, f = .wrapDep u → ∃ u', (callFun g f values env).2.1 = .wrapDep u' ∧ u'.toFnCode = u.toFnCode := by
        refine ⟨fun u hu => ?_, fun u hu => ?_⟩
        · obtain ⟨⟨u', h3, h4⟩, -, h5⟩ := h1 u hu
          exact ⟨u', by rw [h5]; exact h3, h4⟩
        · obtain ⟨⟨u', h3, h4⟩, -, h5⟩ := h2 u hu
          exact ⟨u', by rw [h5]; exact h3, h4⟩
      rcases hc : callFun g f values env with ⟨o, f1, env1⟩
      rw [hc] at kind
      rcases o with result | e | _ | _
      · simp only
        rcases hcmp : compare ops cache result env1 with ⟨e | b, env2⟩
        · exact ⟨kind, fun _ h => h⟩
        · simp only
          have fits : ∀ r, cache.Fits r → (assign ops cache result env2).2.1.Fits r := by
            intro r hr
            cases cache with
            | opt old =>
              simp only [assign]
              split <;> exact hr
            | rv o => exact hr
          rcases has : assign ops cache result env2 with ⟨e | _, cache', env3⟩
          · rw [has] at fits
            exact ⟨kind, fits⟩
          · rw [has] at fits
            simp only
            split <;> exact ⟨kind, fits⟩
      all_goals exact ⟨kind, fun _ h => h⟩
  · split <;> exact ⟨same _ rfl, fun _ h => h⟩

variable [CxxData D]

mutual
theorem evalN_shape (g : Glue) (ops : Ops D W E) (t : Tree D W E S) (o : Obj D W E S) (env : Env D W E S) (h : Shape t o) :
    Shape t (evalN g ops o env).2.1 := by
  match t with
  | .value v => simp only [Shape] at h; subst h; simp [evalN, Shape]
  | .function c =>
    simp only [Shape] at h
    obtain ⟨u, cache, rfl, hv, hf, rfl⟩ := h
    have hd : evalDeps g ops [Obj.lazyValue (.data CxxData.zero) true] env =
        (.ok [⟨.data CxxData.zero, true, !(g.resultByRef && g.valueParamByValue)⟩], [(Obj.lazyValue (.data CxxData.zero) true : Obj D W E S)], env) := by
      simp [evalDeps, evalN, Out.map]
    rw [evalN_core_ok g ops _ _ _ _ hd]
    obtain ⟨⟨-, h1⟩, h2⟩ := coreTail_kind g ops (.wrapDep u) cache [⟨.data CxxData.zero, true, !(g.resultByRef && g.valueParamByValue)⟩] env
    obtain ⟨u', h3, h4⟩ := h1 u rfl
    simp only [Shape]
    rw [h3]
    refine ⟨keep g.coreParamsByValue u u', _, by simp [h4], hv, keep_ind (P := fun c => Cache.Fits c u.ret) g.bindFrontCopies hf (h2 _ hf), ?_⟩
    cases g.coreParamsByValue <;> simp
  | .lazy c ts =>
    simp only [Shape] at h
    obtain ⟨u, cache, ds, rfl, hf, hds, rfl⟩ := h
    rw [evalN_facade]
    have hds' := evalDeps_shape g ops ts ds env hds
    rcases he : evalDeps g ops ds env with ⟨q, ds', env1⟩
    rw [he] at hds'
    by_cases hq : q.isOk
    · obtain ⟨rs, rfl⟩ : ∃ rs, q = .ok rs := by cases q <;> simp_all [Out.isOk]
      rw [evalN_core_ok g ops _ _ _ _ he]
      obtain ⟨⟨h1, -⟩, h2⟩ := coreTail_kind g ops (.regularized u) cache rs env1
      obtain ⟨u', h3, h4⟩ := h1 u rfl
      simp only [Shape]
      rw [keep_core, h3]
      refine ⟨keep (g.facadeParamByValue || g.unwrapParamByValue) u (keep g.coreParamsByValue u u'), _, _, by simp [h4],
        keep_ind (P := fun c => Cache.Fits c u.ret) (g.facadeParamByValue || g.unwrapParamByValue) hf
          (keep_ind (P := fun c => Cache.Fits c u.ret) g.bindFrontCopies hf (h2 _ hf)),
        keep_ind (g.facadeParamByValue || g.unwrapParamByValue) hds (keep_ind g.coreParamsByValue hds hds'), ?_⟩
      cases g.coreParamsByValue <;> cases (g.facadeParamByValue || g.unwrapParamByValue) <;> simp
    · rw [evalN_core_fail g ops _ _ _ _ he (by simpa using hq)]
      simp only [Shape]
      rw [keep_core]
      exact ⟨u, cache, keep (g.facadeParamByValue || g.unwrapParamByValue) ds (keep g.coreParamsByValue ds ds'), rfl, hf,
        keep_ind _ hds (keep_ind _ hds hds'), by simp⟩
theorem evalDeps_shape (g : Glue) (ops : Ops D W E) (ts : List (Tree D W E S)) (ds : List (Obj D W E S)) (env : Env D W E S) (h : ShapeL ts ds) :
    ShapeL ts (evalDeps g ops ds env).2.1 := by
  match ts with
  | [] => simp only [ShapeL] at h; subst h; simp [evalDeps, ShapeL]
  | t :: ts =>
    simp only [ShapeL] at h
    obtain ⟨d, ds', hd, hds, rfl⟩ := h
    have h1 := evalN_shape g ops t d env hd
    rw [evalDeps]
    rcases he : evalN g ops d env with ⟨o, d', env1⟩
    rw [he] at h1
    cases o with
    | ok r =>
      simp only [ShapeL]
      exact ⟨_, _, h1, evalDeps_shape g ops ts ds' env1 hds, rfl⟩
    | _ =>
      simp only [ShapeL]
      exact ⟨_, _, h1, hds, rfl⟩
end

theorem call0_obj (g : Glue) (ops : Ops D W E) (c : FnCode D W E S) (us : List (Tree D W E S)) (o : Obj D W E S) (env : Env D W E S)
    (h : Shape (.lazy c us) o) : (call0 g ops o env).2 = (evalN g ops o env).2 := by
  simp only [Shape] at h
  obtain ⟨u, cache, ds, rfl, hf, hds, rfl⟩ := h
  rw [call0_facade, evalN_facade]

theorem call0_result (g : Glue) (ops : Ops D W E) (c : FnCode D W E S) (ts : List (Tree D W E S)) (o : Obj D W E S)
    (env : Env D W E S) (h : Shape (.lazy c ts) o) :
    (∀ e, (call0 g ops o env).1 = .thrown e ↔ (evalN g ops o env).1 = .thrown e) ∧
    (∀ r, (evalN g ops o env).1 = .ok r → r.live = true → (call0 g ops o env).1 = .ok (if c.ret = .val then some r.value else none)) := by
  simp only [Shape] at h
  obtain ⟨u, cache, ds, rfl, hf, hds, rfl⟩ := h
  rw [call0_facade, evalN_facade]
  have hrv : ∀ x : Option (Val D), (if (Obj.core (.regularized u) cache ds : Obj D W E S).valueIsRV then none else x) =
      if u.ret = .val then x else none := by
    intro x
    cases cache with
    | opt o => simp only [Cache.Fits] at hf; simp [Obj.valueIsRV, hf]
    | rv o => simp only [Cache.Fits] at hf; simp [Obj.valueIsRV, hf]
  rcases h1 : (evalN g ops (Obj.core (.regularized u) cache ds) env).1 with r0 | e | _ | _
  · simp only [Out.map, LazyRes.through, hrv]
    refine ⟨?_, ?_⟩
    · intro e; split <;> simp
    · intro r hr hl
      simp only [Out.ok.injEq] at hr
      subst hr
      simp only [Bool.and_eq_true, Bool.not_eq_true', Bool.and_eq_false_iff, Bool.or_eq_false_iff] at hl
      have : (r0.live && !(g.resultByRef && g.unwrapParamByValue)) = true := by
        rcases hl with ⟨q, q' | q'⟩
        · simp [q, q']
        · simp [q, q'.2]
      simp only [this, if_true]
  all_goals simp [Out.map]

/-! ### One evaluation -/

omit [CxxData D] in
/-- A node whose function returned: comparison or copy may fail; otherwise the result is cached. -/
theorem coreTail_ran (g : Glue) (ops : Ops D W E) (hs : ops.Sound) (obs : W → O) (hu : ops.Unobserved obs) (f f' : Fun D W E S) (cache : Cache D)
    (rs : List (LazyRes D)) (env env1 : Env D W E S) (args : List (Val D)) (ret : RetTy) (x : Val D)
    (h : (!cache.engaged || any LazyRes.isChanged rs) = true) (hr : readValues rs = some args)
    (hc : callFun g f args env = (.ok (ret.regularize x), f', env1)) (hf : cache.Fits ret) :
    ∃ q cache' env' l, coreTail g ops f cache rs env = (q, f', cache', env') ∧ env'.log = env1.log ++ l ∧ obs env'.w = obs env1.w ∧
      ((∃ e, q = .thrown e ∧ Fault l e) ∨
       ∃ b, q = .ok ⟨ret.regularize x, b, g.coreLive cache⟩ ∧ cache'.val? = some (ret.regularize x) ∧
        (b = false → ∀ y, cache.val? = some y → y = ret.regularize x)) := by
  unfold coreTail
  simp only [h, if_true, hr, hc]
  rcases cache with old | o
  · simp only [Cache.Fits] at hf
    subst hf
    simp only [RetTy.regularize]
    have store : ∀ b (env2 : Env D W E S) l0, env2.log = env1.log ++ l0 → obs env2.w = obs env1.w → (b = false → ∀ y, old = some y → y = x) →
        ∃ q cache' env' l, ((match assign ops (.opt old) x env2 with
          | (.error e, cache', env3) => (.thrown e, f', cache', env3)
          | (.ok _, cache', env3) =>
            match cache'.deref with
            | some v => (.ok ⟨v, b, g.coreLive (.opt old : Cache D)⟩, f', cache', env3)
            | none => (.ub, f', cache', env3)) : Out E (LazyRes D) × Fun D W E S × Cache D × Env D W E S) = (q, f', cache', env') ∧ env'.log = env1.log ++ l ∧ obs env'.w = obs env1.w ∧
          ((∃ e, q = .thrown e ∧ Fault l e) ∨ ∃ b, q = .ok ⟨x, b, g.coreLive (.opt old : Cache D)⟩ ∧ cache'.val? = some x ∧ (b = false → ∀ y, old = some y → y = x)) := by
      intro b env2 l0 hl hw hb
      simp only [assign]
      rcases hst : (ops.store old x env2.w).1 with e | _
      · exact ⟨_, _, _, l0 ++ [.store old x (.error e)], rfl, by simp [hl], by simp only; rw [hu.2, hw], .inl ⟨e, rfl, l0, .inr ⟨_, _, rfl⟩⟩⟩
      · exact ⟨_, _, _, l0 ++ [.store old x (.ok ())], rfl, by simp [hl], by simp only; rw [hu.2, hw], .inr ⟨b, rfl, rfl, hb⟩⟩
    rcases old with _ | c
    · simp only [compare]
      exact store _ env1 [] (by simp) rfl (by simp)
    · simp only [compare]
      rcases hne : (ops.ne c x env1.w).1 with e | b
      · exact ⟨_, _, _, [.ne c x (.error e)], rfl, rfl, by simp only; rw [hu.1], .inl ⟨e, rfl, [], .inl ⟨_, _, rfl⟩⟩⟩
      · exact store b _ [.ne c x (.ok b)] rfl (by simp only; rw [hu.1]) (fun hb y hy => by subst hb; cases hy; exact hs c x _ hne)
  · simp only [Cache.Fits] at hf
    have hx : (ret.regularize x : Val D) = .rvoid := by cases ret <;> simp_all [RetTy.regularize]
    simp only [hx, compare, assign]
    refine ⟨_, _, _, [], rfl, by simp, rfl, .inr ⟨_, rfl, ?_, ?_⟩⟩
    · rcases o with ⟨b⟩; rfl
    · rcases o with ⟨b⟩
      cases b <;> simp [OptRV.ne, OptRV.ofRV, OptRV.toBool, Cache.val?]

omit [CxxData D] in
theorem coreTail_threw (g : Glue) (ops : Ops D W E) (f f' : Fun D W E S) (cache : Cache D) (rs : List (LazyRes D)) (env env' : Env D W E S)
    (args : List (Val D)) (e : E) (h : (!cache.engaged || any LazyRes.isChanged rs) = true) (hr : readValues rs = some args)
    (hc : callFun g f args env = (.thrown e, f', env')) : coreTail g ops f cache rs env = (.thrown e, f', cache, env') := by
  simp [coreTail, h, hr, hc, Out.map]

omit [CxxData D] in
theorem coreTail_kept (g : Glue) (ops : Ops D W E) (f : Fun D W E S) (cache : Cache D) (rs : List (LazyRes D)) (env : Env D W E S) (v : Val D)
    (h : any LazyRes.isChanged rs = false) (hv : cache.val? = some v) :
    coreTail g ops f cache rs env = (.ok ⟨v, false, g.coreLive cache⟩, f, cache, env) := by
  have hd := Cache.deref_of_val? _ hv
  have he : cache.engaged = true := by rw [Cache.engaged_val?, hv]; rfl
  simp [coreTail, h, he, hd]

/-- One evaluation of a consistent object: as `StepE`, with failures of comparisons and copies. -/
def StepX (g : Glue) (ops : Ops D W E) (m : MeaningE D W E S O) (t : Tree D W E S) (o : Obj D W E S) (env : Env D W E S) : Prop :=
  ∃ q o' env' l, evalN g ops o env = (q, o', env') ∧ env'.log = env.log ++ l ∧ m.obs env'.w = m.obs env.w ∧
    ((∃ e, q = .thrown e ∧ (m.eager (m.obs env.w) t = .error e ∨ Fault l e)) ∨
     ∃ r, q = .ok r ∧ m.eager (m.obs env.w) t = .ok r.value ∧ r.live = true ∧ (r.isChanged = false → ∀ v, o.lastVal = some v → v = r.value) ∧
      (g.Retains → ConsE m t o' ∧ o'.lastVal = some r.value))

/-- Of several. -/
def StepXL (g : Glue) (ops : Ops D W E) (m : MeaningE D W E S O) (ts : List (Tree D W E S)) (ds : List (Obj D W E S)) (env : Env D W E S) : Prop :=
  ∃ q ds' env' l, evalDeps g ops ds env = (q, ds', env') ∧ env'.log = env.log ++ l ∧ m.obs env'.w = m.obs env.w ∧
    ((∃ e, q = .thrown e ∧ (m.eagerL (m.obs env.w) ts = .error e ∨ Fault l e)) ∨
     ∃ rs, q = .ok rs ∧ m.eagerL (m.obs env.w) ts = .ok (rs.map LazyRes.value) ∧ rs.all (·.live) = true ∧ rs.length = ts.length ∧
      (rs.any (·.isChanged) = false → ∀ vs, ds.map Obj.lastVal = vs.map some → vs = rs.map LazyRes.value) ∧
      (g.Retains → ConsEL m ts ds' ∧ ds'.map Obj.lastVal = (rs.map LazyRes.value).map some))

omit [CxxData D] in
theorem Fault.after {l : List (Ev D E S)} {e : E} (h : Fault l e) (l0 : List (Ev D E S)) : Fault (l0 ++ l) e := by
  obtain ⟨b, ⟨x, y, rfl⟩ | ⟨x, y, rfl⟩⟩ := h
  · exact ⟨l0 ++ b, .inl ⟨x, y, by simp⟩⟩
  · exact ⟨l0 ++ b, .inr ⟨x, y, by simp⟩⟩

mutual
theorem evalN_stepX (g : Glue) (ops : Ops D W E) (hs : ops.Sound) (m : MeaningE D W E S O) (hu : ops.Unobserved m.obs) (t : Tree D W E S)
    (o : Obj D W E S) (env : Env D W E S) (h : Shape t o) (hok : m.Ok t) (hnl : m.NoLone t) (hsafe : g.SafeFor t) (hc : ConsE m t o) :
    StepX g ops m t o env := by
  match t with
  | .value v =>
    simp only [Shape] at h; subst h
    refine ⟨_, _, _, [], rfl, by simp, rfl, .inr ⟨_, rfl, rfl, ?_, fun _ v hv => (Option.some.inj hv).symm, fun _ => ⟨by simp [ConsE], rfl⟩⟩⟩
    rcases hsafe with h | ⟨_, _, _, h, _⟩ <;> simp [h]
  | .function c =>
    simp only [Shape] at h
    obtain ⟨u, cache, rfl, hv, hf, rfl⟩ := h
    have hlive : (!(g.resultByRef && g.valueParamByValue)) = true := by
      rcases hsafe with h | ⟨_, _, _, h, _⟩ <;> simp [h]
    have hd : evalDeps g ops [Obj.lazyValue (.data CxxData.zero) true] env =
        (.ok [⟨.data CxxData.zero, true, true⟩], [(Obj.lazyValue (.data CxxData.zero) true : Obj D W E S)], env) := by
      simp [evalDeps, evalN, Out.map, hlive]
    obtain ⟨f', env', l, hlog, -, hcall⟩ := callFun_user g (.wrapDep u) [.data CxxData.zero] env
    obtain ⟨⟨u', rfl, -⟩, hw, hcall⟩ := hcall u rfl
    have hlf : (u.run u.st [] env.w).1 = m.leaf u.toFnCode (m.obs env.w) ∧ m.obs (u.run u.st [] env.w).2.2 = m.obs env.w := by
      cases hok with
      | function _ h => exact h _ _
    rw [hlf.1] at hcall
    rw [StepX, evalN_core_ok g ops (.wrapDep u) cache _ env hd]
    cases hleaf : m.leaf u.toFnCode (m.obs env.w) with
    | error e =>
      rw [hleaf] at hcall
      rw [coreTail_threw g ops _ _ cache _ env env' [.data CxxData.zero] e (by simp [any, anyS]) (by rfl) hcall]
      exact ⟨_, _, _, l, rfl, hlog, by rw [hw, hlf.2], .inl ⟨e, rfl, .inl (by simp [MeaningE.eager, hleaf])⟩⟩
    | ok v =>
      rw [hleaf] at hcall
      obtain ⟨q, cache', env2, l2, htail, hlog2, hobs2, hq⟩ := coreTail_ran g ops hs m.obs hu _ _ cache [⟨.data CxxData.zero, true, true⟩] env env' [.data CxxData.zero] u.ret v
        (by simp [any, anyS]) (by rfl) hcall hf
      rw [htail]
      refine ⟨_, _, _, l ++ l2, rfl, by simp [hlog2, hlog], by simp only; rw [hobs2, hw, hlf.2], ?_⟩
      rcases hq with ⟨e, rfl, hfault⟩ | ⟨b, rfl, hval, hun⟩
      · exact .inl ⟨e, rfl, .inr (hfault.after l)⟩
      · refine .inr ⟨_, rfl, by simp [MeaningE.eager, hleaf], coreLive_of_safe hsafe (.inl rfl) hf, hun, ?_⟩
        intro ⟨ha, _, _, _⟩
        refine ⟨by simp [ConsE], ?_⟩
        simp only [ha, keep_false, Obj.lastVal]
        exact hval
  | .lazy c ts =>
    simp only [Shape] at h
    obtain ⟨u, cache, ds, rfl, hf, hds, rfl⟩ := h
    simp only [ConsE] at hc
    obtain ⟨_, _, _, heq, hcache, hcl⟩ := hc
    simp only [Obj.unregularized.injEq, Obj.unwrapped.injEq, Obj.core.injEq] at heq
    obtain ⟨rfl, rfl, rfl⟩ := heq
    have hfn : ∀ s args w, (u.run s args w).1 = m.fn u.toFnCode args ∧ m.obs (u.run s args w).2.2 = m.obs w := by
      cases hok with
      | lazy _ _ h => exact h
    have hoks : ∀ t ∈ ts, m.Ok t := by cases hok; assumption
    have hnls : ∀ t ∈ ts, m.NoLone t := by cases hnl; assumption
    have hlone : ∀ t, ts = [t] → ∀ o vs, m.eager o t ≠ .ok (.tup vs) := by cases hnl; assumption
    have hthru : (g.resultByRef && (g.facadeParamByValue || g.unwrapParamByValue)) = false := by
      rcases hsafe with h | ⟨_, h2, h3, _, _⟩
      · simp [h]
      · simp [h2, h3]
    obtain ⟨q, ds', env1, l, he, hlog, hobs, hq⟩ := evalDeps_stepX g ops hs m hu ts ds env hds hoks hnls hsafe.sub hcl
    rw [StepX, evalN_facade]
    rcases hq with ⟨e, rfl, hee⟩ | ⟨rs, rfl, hval, hlive, hlen, hunch, hret⟩
    · rw [evalN_core_fail g ops (.regularized u) cache ds env he rfl]
      refine ⟨_, _, _, l, rfl, hlog, hobs, .inl ⟨e, rfl, ?_⟩⟩
      rcases hee with hee | hee
      · exact .inl (by simp [MeaningE.eager, hee])
      · exact .inr hee
    have hrv : readValues rs = some (rs.map LazyRes.value) := by
      refine readValues_live hlive ?_
      intro r hr
      subst hr
      obtain ⟨t, ht⟩ := List.length_eq_one_iff.1 hlen.symm
      have := hlone t ht (m.obs env.w)
      rw [ht] at hval
      simp only [MeaningE.eagerL] at hval
      cases hx : m.eager (m.obs env.w) t with
      | error e => simp [hx] at hval
      | ok v =>
        simp only [hx, List.map_cons, List.map_nil, Except.ok.injEq, List.cons.injEq, and_true] at hval
        rw [hx] at this
        subst hval
        cases hy : r.value with
        | tup vs => exact absurd (by rw [hy]) (this vs)
        | _ => rfl
    have hclive : g.coreLive cache = true := coreLive_of_safe hsafe (.inr ⟨ts, rfl⟩) hf
    rw [evalN_core_ok g ops (.regularized u) cache ds env he]
    by_cases hch : (!cache.engaged || any LazyRes.isChanged rs) = true
    · obtain ⟨f', env2, l2, hlog2, hcall, -⟩ := callFun_user g (.regularized u) (rs.map LazyRes.value) env1
      obtain ⟨⟨u', rfl, -⟩, hw, hcall⟩ := hcall u rfl
      rw [(hfn _ _ _).1] at hcall
      have hw2 : m.obs env2.w = m.obs env.w := by rw [hw, (hfn _ _ _).2, hobs]
      cases hfv : m.fn u.toFnCode (rs.map LazyRes.value) with
      | error e =>
        rw [hfv] at hcall
        rw [coreTail_threw g ops _ _ cache rs env1 env2 _ e hch hrv hcall]
        exact ⟨_, _, _, l ++ l2, rfl, by simp [hlog2, hlog], hw2, .inl ⟨e, rfl, .inl (by simp [MeaningE.eager, hval, hfv])⟩⟩
      | ok v =>
        rw [hfv] at hcall
        obtain ⟨q, cache', env3, l3, htail, hlog3, hobs3, hq⟩ := coreTail_ran g ops hs m.obs hu _ _ cache rs env1 env2 _ u.ret v hch hrv hcall hf
        rw [htail]
        refine ⟨_, _, _, l ++ l2 ++ l3, rfl, by simp [hlog3, hlog2, hlog], by simp only; rw [hobs3, hw2], ?_⟩
        rcases hq with ⟨e, rfl, hfault⟩ | ⟨b, rfl, hnew, hun⟩
        · exact .inl ⟨e, rfl, .inr (hfault.after _)⟩
        refine .inr ⟨_, rfl, by simp [MeaningE.eager, hval, hfv, LazyRes.through], by simp [LazyRes.through, hclive, hthru], ?_, ?_⟩
        · exact hun
        · intro hR
          obtain ⟨hR1, hR2⟩ := hret hR
          obtain ⟨ha, hb, hc, hd⟩ := hR
          simp only [ha, hb, hc, hd, keep_false, ConsE, Bool.or_self, Obj.lastVal]
          refine ⟨⟨_, _, _, rfl, ?_, hR1⟩, hnew⟩
          intro x hx
          rw [hnew] at hx
          exact ⟨_, v, hR2, hfv, (Option.some.inj hx).symm⟩
    · simp only [Bool.not_eq_true] at hch
      have hch' := hch
      simp only [Bool.or_eq_false_iff, Bool.not_eq_false'] at hch'
      obtain ⟨heng, hany⟩ := hch'
      rw [Cache.engaged_val?] at heng
      obtain ⟨v, hv⟩ := Option.isSome_iff_exists.1 heng
      obtain ⟨vs, x, hvs1, hvs2, hvs3⟩ := hcache v hv
      have hvseq : vs = rs.map LazyRes.value := hunch (by rw [← any_eq]; exact hany) vs hvs1
      subst hvseq
      rw [coreTail_kept g ops (.regularized u) cache rs env1 v hany hv]
      refine ⟨_, _, _, l, rfl, hlog, hobs, .inr ⟨_, rfl, by simp [MeaningE.eager, hval, hvs2, hvs3, LazyRes.through],
        by simp [LazyRes.through, hclive, hthru], fun _ y hy => Option.some.inj (hy.symm.trans hv), ?_⟩⟩
      intro hR
      obtain ⟨hR1, hR2⟩ := hret hR
      obtain ⟨ha, hb, hc, hd⟩ := hR
      simp only [hb, hc, hd, keep_false, keep_self, ConsE, Bool.or_self, Obj.lastVal]
      refine ⟨⟨_, _, _, rfl, ?_, hR1⟩, hv⟩
      intro y hy
      rw [hv] at hy
      cases hy
      exact ⟨_, x, hR2, hvs2, hvs3⟩
theorem evalDeps_stepX (g : Glue) (ops : Ops D W E) (hs : ops.Sound) (m : MeaningE D W E S O) (hu : ops.Unobserved m.obs) (ts : List (Tree D W E S))
    (ds : List (Obj D W E S)) (env : Env D W E S) (h : ShapeL ts ds) (hok : ∀ t ∈ ts, m.Ok t) (hnl : ∀ t ∈ ts, m.NoLone t)
    (hsafe : ∀ t ∈ ts, g.SafeFor t) (hc : ConsEL m ts ds) : StepXL g ops m ts ds env := by
  match ts with
  | [] =>
    simp only [ShapeL] at h; subst h
    exact ⟨.ok [], [], env, [], by simp [evalDeps], by simp, rfl, .inr ⟨[], rfl, rfl, rfl, rfl, fun _ vs hv => by simpa using hv, fun _ => ⟨by simp [ConsEL], rfl⟩⟩⟩
  | t :: ts =>
    simp only [ShapeL] at h
    obtain ⟨d, ds', hd, hds, rfl⟩ := h
    simp only [ConsEL] at hc
    obtain ⟨_, _, heq, hc1, hc2⟩ := hc
    simp only [List.cons.injEq] at heq
    obtain ⟨rfl, rfl⟩ := heq
    obtain ⟨q, d', env1, l, e1, e0, e2, e3⟩ :=
      evalN_stepX g ops hs m hu t d env hd (hok t (by simp)) (hnl t (by simp)) (hsafe t (by simp)) hc1
    rcases e3 with ⟨e, rfl, hee⟩ | ⟨r, rfl, e3, e4, e5, e6⟩
    · refine ⟨.thrown e, d' :: ds', env1, l, by simp [evalDeps, e1, Out.map], e0, e2, .inl ⟨e, rfl, ?_⟩⟩
      rcases hee with hee | hee
      · exact .inl (by simp [MeaningE.eagerL, hee])
      · exact .inr hee
    obtain ⟨q, ds'', env2, l2, q1, q0, q2, q3⟩ := evalDeps_stepX g ops hs m hu ts ds' env1 hds
      (fun t ht => hok t (by simp [ht])) (fun t ht => hnl t (by simp [ht])) (fun t ht => hsafe t (by simp [ht])) hc2
    rw [e2] at q2 q3
    rcases q3 with ⟨e, rfl, hee⟩ | ⟨rs, rfl, q3, q4, q5, q6, q7⟩
    · refine ⟨.thrown e, d' :: ds'', env2, l ++ l2, by simp [evalDeps, e1, q1, Out.map], by simp [q0, e0], q2, .inl ⟨e, rfl, ?_⟩⟩
      rcases hee with hee | hee
      · exact .inl (by simp [MeaningE.eagerL, hee, e3])
      · exact .inr (hee.after l)
    refine ⟨.ok (r :: rs), d' :: ds'', env2, l ++ l2, by simp [evalDeps, e1, q1, Out.map], by simp [q0, e0], q2,
      .inr ⟨r :: rs, rfl, by simp [MeaningE.eagerL, e3, q3], by simp [e4, q4], by simp [q5], ?_, ?_⟩⟩
    · intro hch
      simp only [List.any_cons, Bool.or_eq_false_iff] at hch
      intro vs hvs
      cases vs with
      | nil => simp at hvs
      | cons v vs =>
        simp only [List.map_cons, List.cons.injEq] at hvs
        rw [e5 hch.1 v hvs.1, q6 hch.2 vs hvs.2, List.map_cons]
    · intro hR
      obtain ⟨a1, a2⟩ := e6 hR
      obtain ⟨b1, b2⟩ := q7 hR
      exact ⟨by simp only [ConsEL]; exact ⟨_, _, rfl, a1, b1⟩, by simp [a2, b2]⟩
end

/-! ### Objects without cached values, when calls drop what they do -/

omit [CxxData D] in
mutual
theorem evalN_pristine (g : Glue) (ops : Ops D W E) (ha : g.bindFrontCopies = true) (o : Obj D W E S) (env : Env D W E S) (hp : o.Pristine) :
    (evalN g ops o env).2.1.Pristine := by
  match o with
  | .lazyValue v c => simp [evalN, Obj.Pristine]
  | .core f cache deps =>
    simp only [Obj.Pristine] at hp
    have hd := evalDeps_pristine g ops ha deps env hp.2
    rcases he : evalDeps g ops deps env with ⟨q, ds', env1⟩
    rw [he] at hd
    rw [evalN, he]
    rcases q with rs | e | _ | _ <;> simp only [Obj.Pristine, ha, keep_true]
    all_goals exact ⟨hp.1, keep_ind _ hp.2 hd⟩
  | .unwrapped i =>
    rw [evalN]
    simp only [Obj.Pristine] at hp ⊢
    exact keep_ind _ hp (evalN_pristine g ops ha i env hp)
  | .unregularized i =>
    rw [evalN]
    simp only [Obj.Pristine] at hp ⊢
    exact keep_ind _ hp (evalN_pristine g ops ha i env hp)
theorem evalDeps_pristine (g : Glue) (ops : Ops D W E) (ha : g.bindFrontCopies = true) (ds : List (Obj D W E S)) (env : Env D W E S)
    (hp : Obj.PristineL ds) : Obj.PristineL (evalDeps g ops ds env).2.1 := by
  match ds with
  | [] => simp [evalDeps, Obj.PristineL]
  | d :: ds =>
    simp only [Obj.PristineL] at hp
    have h1 := evalN_pristine g ops ha d env hp.1
    rcases he : evalN g ops d env with ⟨o, d', env1⟩
    rw [he] at h1
    rw [evalDeps, he]
    cases o with
    | ok r =>
      simp only [Obj.PristineL]
      exact ⟨h1, evalDeps_pristine g ops ha ds env1 hp.2⟩
    | _ => simp only [Obj.PristineL]; exact ⟨h1, hp.2⟩
end

theorem dropped_pristine (g : Glue) (ops : Ops D W E) (hg : g.Drops) (c : FnCode D W E S) (us : List (Tree D W E S)) (o : Obj D W E S)
    (env : Env D W E S) (h : Shape (.lazy c us) o) (hp : o.Pristine) : (evalN g ops o env).2.1.Pristine := by
  simp only [Shape] at h
  obtain ⟨u, cache, ds, rfl, hf, hds, rfl⟩ := h
  rw [evalN_facade]
  simp only [Obj.Pristine] at hp ⊢
  rcases hg with h | h | h
  · exact keep_ind _ (by simpa [Obj.Pristine] using hp) (evalN_pristine g ops h _ env (by simpa [Obj.Pristine] using hp))
  · simpa [h, Obj.Pristine] using hp
  · simpa [h, Obj.Pristine] using hp

/-! ### Histories -/

/-- As `Pigro.Inv`. -/
structure Inv (ts : List (Tree D W E S)) (vars : List (Obj D W E S)) : Prop where
  shape : ShapeL ts vars
  lz : ∀ t ∈ ts, ∃ c us, t = .lazy c us

theorem step_call (g : Glue) (ops : Ops D W E) (s : State D W E S) (i : Nat) (o : Obj D W E S) (ho : s.vars[i]? = some o) :
    step g ops s (.call i) = (.ret (call0 g ops o s.env).1, State.mk (s.vars.set i (call0 g ops o s.env).2.1) (call0 g ops o s.env).2.2) := by
  simp [step, ho]

theorem step_poll (g : Glue) (ops : Ops D W E) (s : State D W E S) (i : Nat) (o : Obj D W E S) (ho : s.vars[i]? = some o) :
    step g ops s (.poll i) = (.polled (evalN g ops o s.env).1, State.mk (s.vars.set i (evalN g ops o s.env).2.1) (evalN g ops o s.env).2.2) := by
  simp [step, ho]

/-- A property of variables that holds when they are made and is kept by evaluations that do not throw, for variables that are not marked; and, if `all`, by all
evaluations, for all variables. -/
structure Kept (g : Glue) (ops : Ops D W E) (ts : List (Tree D W E S)) (all : Bool) (P : Tree D W E S → Obj D W E S → Prop) : Prop where
  built : Built P
  kept : ∀ t ∈ ts, ∀ o env, Shape t o → P t o → (∀ e, (evalN g ops o env).1 ≠ .thrown e) ∨ all = true → P t (evalN g ops o env).2.1

/-- Variables that are not marked (or all) have the property. -/
def Has (all : Bool) (P : Tree D W E S → Obj D W E S → Prop) (l : List Bool) (ts : List (Tree D W E S)) (vars : List (Obj D W E S)) : Prop :=
  l.length = ts.length ∧ ∀ (i : Nat) t o, l[i]? = some false ∨ all = true → ts[i]? = some t → vars[i]? = some o → P t o

omit [CxxData D] in
theorem Has.append {all : Bool} {P : Tree D W E S → Obj D W E S → Prop} {l : List Bool} {ts : List (Tree D W E S)} {vars : List (Obj D W E S)}
    (h : Has all P l ts vars) (hl : ts.length = vars.length) {b : Bool} {t : Tree D W E S} {o : Obj D W E S} (ho : b = false ∨ all = true → P t o) :
    Has all P (l ++ [b]) (ts ++ [t]) (vars ++ [o]) := by
  refine ⟨by simp [h.1], ?_⟩
  intro i t' o' hb ht ho'
  rw [List.getElem?_append] at hb ht ho'
  rw [h.1] at hb
  rw [← hl] at ho'
  split at ht
  · rename_i hi
    rw [if_pos hi] at ho' hb
    exact h.2 i t' o' hb ht ho'
  · rename_i hi
    rw [if_neg hi] at ho' hb
    rcases Nat.eq_zero_or_pos (i - ts.length) with h0 | h0
    · simp only [h0, List.getElem?_cons_zero, Option.some.injEq] at ht ho' hb
      rw [← ht, ← ho']; exact ho hb
    · rw [List.getElem?_eq_none (by simp; omega)] at ht; cases ht

omit [CxxData D] in
theorem Has.set {all : Bool} {P : Tree D W E S → Obj D W E S → Prop} {l : List Bool} {ts : List (Tree D W E S)} {vars : List (Obj D W E S)}
    (h : Has all P l ts vars) {i : Nat} {o : Obj D W E S} (ho : ∀ t, l[i]? = some false ∨ all = true → ts[i]? = some t → P t o) :
    Has all P l ts (vars.set i o) := by
  refine ⟨h.1, ?_⟩
  intro j t' o' hb ht ho'
  rw [List.getElem?_set] at ho'
  split at ho'
  · subst_vars
    split at ho'
    · simp only [Option.some.injEq] at ho'; subst ho'; exact ho t' hb ht
    · cases ho'
  · exact h.2 j t' o' hb ht ho'

omit [CxxData D] in
theorem Has.mark {all : Bool} {P : Tree D W E S → Obj D W E S → Prop} {l : List Bool} {ts : List (Tree D W E S)} {vars : List (Obj D W E S)}
    (h : Has all P l ts vars) (i : Nat) (o : Obj D W E S) (ho : ∀ t, all = true → ts[i]? = some t → P t o) :
    Has all P (l.set i true) ts (vars.set i o) := by
  refine ⟨by simp [h.1], ?_⟩
  intro j t' o' hb ht ho'
  rw [List.getElem?_set] at hb ho'
  by_cases hij : i = j
  · subst hij
    rw [if_pos rfl] at hb ho'
    rcases hb with hb | hb
    · split at hb <;> simp at hb
    · split at ho'
      · simp only [Option.some.injEq] at ho'; subst ho'; exact ho t' hb ht
      · cases ho'
  · rw [if_neg hij] at hb ho'
    exact h.2 j t' o' hb ht ho'

theorem step_has (g : Glue) (ops : Ops D W E) {all : Bool} {P : Tree D W E S → Obj D W E S → Prop} {l : List Bool} {ts : List (Tree D W E S)}
    (hk : Kept g ops ts all P) {s : State D W E S} (hi : Inv ts s.vars) (hm : Has all P l ts s.vars) (op : Op D W E S) :
    Inv (stepTrees ts op) (step g ops s op).2.vars ∧ Has all P (markStep l op (step g ops s op).1) (stepTrees ts op) (step g ops s op).2.vars := by
  have tree : ∀ (i : Nat) o, s.vars[i]? = some o → ∃ c us, ts[i]? = some (.lazy c us) ∧ Shape (.lazy c us) o := by
    intro i o ho
    have hlt : i < ts.length := by
      rw [hi.shape.length]; exact (List.getElem?_eq_some_iff.1 ho).1
    have ht : ts[i]? = some ts[i] := List.getElem?_eq_getElem hlt
    obtain ⟨c, us, hc⟩ := hi.lz _ (List.getElem_mem hlt)
    rw [hc] at ht
    exact ⟨c, us, ht, hi.shape.get? ht ho⟩
  have eval : ∀ (i : Nat) o, s.vars[i]? = some o →
      ((∃ e, (evalN g ops o s.env).1 = .thrown e) ∧ ∀ t, all = true → ts[i]? = some t → P t (evalN g ops o s.env).2.1) ∨
      ((∀ e, (evalN g ops o s.env).1 ≠ .thrown e) ∧ ∀ t, l[i]? = some false ∨ all = true → ts[i]? = some t → P t (evalN g ops o s.env).2.1) := by
    intro i o ho
    by_cases hth : ∃ e, (evalN g ops o s.env).1 = .thrown e
    · refine .inl ⟨hth, fun t ha ht => ?_⟩
      exact hk.kept t (List.mem_of_getElem? ht) o s.env (hi.shape.get? ht ho) (hm.2 i t o (.inr ha) ht ho) (.inr ha)
    · refine .inr ⟨fun e he => hth ⟨e, he⟩, ?_⟩
      intro t hb ht
      exact hk.kept t (List.mem_of_getElem? ht) o s.env (hi.shape.get? ht ho) (hm.2 i t o hb ht ho) (.inl fun e he => hth ⟨e, he⟩)
  cases op with
  | mk f deps =>
    have key := mk_tree hi.shape hi.lz f deps
    simp only [stepTrees, step]
    rcases ha : argTrees ts deps with _ | us
    · rw [key.2 ha]; exact ⟨hi, hm⟩
    · obtain ⟨os, hos, hsh, hos2⟩ := key.1 us ha
      rw [hos]
      refine ⟨⟨hi.shape.append ?_, ?_⟩, hm.append hi.shape.length ?_⟩
      · simp only [ShapeL, Shape]
        exact ⟨_, [], ⟨f, _, os, rfl, Cache.empty_fits _, hsh, rfl⟩, rfl, rfl⟩
      · intro t ht
        rcases List.mem_append.1 ht with ht | ht
        · exact hi.lz t ht
        · simp only [List.mem_singleton] at ht; exact ⟨_, _, ht⟩
      · intro hb
        refine hk.built.lazy f us os hsh.length (args_built_of hk.built hi.shape hi.lz deps ?_ us os ha hos2) hsh
        intro i t o hmem ht ho
        rcases hb with hb | hb
        · have : ArgRef.marked l (.var i : ArgRef D W E S) = false := by
            simp only [List.any_eq_false] at hb
            simpa using hb _ hmem
          simp only [ArgRef.marked] at this
          have hlt : i < l.length := by
            rw [hm.1]
            exact (List.getElem?_eq_some_iff.1 ht).1
          rw [List.getElem?_eq_getElem hlt, Option.getD_some] at this
          exact hm.2 i t o (.inl (by rw [List.getElem?_eq_getElem hlt, this])) ht ho
        · exact hm.2 i t o (.inr hb) ht ho
  | copy i =>
    simp only [stepTrees, step]
    rcases ho : s.vars[i]? with _ | o
    · have : ts[i]? = none := by
        rw [List.getElem?_eq_none_iff] at ho ⊢
        rw [hi.shape.length]; exact ho
      rw [this]; exact ⟨hi, hm⟩
    · obtain ⟨c, us, ht, hsh⟩ := tree i o ho
      rw [ht]
      refine ⟨⟨hi.shape.append ?_, ?_⟩, hm.append hi.shape.length ?_⟩
      · simp only [ShapeL]; exact ⟨o, [], hsh, rfl, rfl⟩
      · intro t ht'
        rcases List.mem_append.1 ht' with ht' | ht'
        · exact hi.lz t ht'
        · simp only [List.mem_singleton] at ht'; exact ⟨_, _, ht'⟩
      · intro hb
        refine hm.2 i _ _ ?_ ht ho
        rcases hb with hb | hb
        · have h3 : i < l.length := by rw [hm.1]; exact (List.getElem?_eq_some_iff.1 ht).1
          rw [List.getElem?_eq_getElem h3, Option.getD_some] at hb
          exact .inl (by rw [List.getElem?_eq_getElem h3, hb])
        · exact .inr hb
  | call i =>
    rcases ho : s.vars[i]? with _ | o
    · simp only [step, ho, markStep, stepTrees]; exact ⟨hi, hm⟩
    · obtain ⟨c, us, ht, hsh⟩ := tree i o ho
      have hobj := call0_obj g ops c us o s.env hsh
      obtain ⟨c2, -⟩ := call0_result g ops c us o s.env hsh
      rw [step_call g ops s i o ho]
      simp only [stepTrees]
      have hsh' := evalN_shape g ops _ o s.env hsh
      refine ⟨⟨hi.shape.set ht (by rw [hobj]; exact hsh'), hi.lz⟩, ?_⟩
      rcases eval i o ho with ⟨⟨e, he⟩, hall⟩ | ⟨hn, hcons⟩
      · rw [(c2 e).2 he]
        exact hm.mark i _ (by rw [hobj]; exact hall)
      · have : markStep l (.call i : Op D W E S) (.ret (call0 g ops o s.env).1) = l := by
          cases hq : (call0 g ops o s.env).1 with
          | thrown e => exact absurd ((c2 e).1 hq) (hn e)
          | _ => rfl
        rw [this]
        refine hm.set ?_
        rw [hobj]
        exact hcons
  | poll i =>
    rcases ho : s.vars[i]? with _ | o
    · simp only [step, ho, markStep, stepTrees]; exact ⟨hi, hm⟩
    · obtain ⟨c, us, ht, hsh⟩ := tree i o ho
      rw [step_poll g ops s i o ho]
      simp only [stepTrees]
      refine ⟨⟨hi.shape.set ht (evalN_shape g ops _ o s.env hsh), hi.lz⟩, ?_⟩
      rcases eval i o ho with ⟨⟨e, he⟩, hall⟩ | ⟨hn, hcons⟩
      · rw [he]
        exact hm.mark i _ hall
      · have : markStep l (.poll i : Op D W E S) (.polled (evalN g ops o s.env).1) = l := by
          cases hq : (evalN g ops o s.env).1 with
          | thrown e => exact absurd hq (hn e)
          | _ => rfl
        rw [this]
        exact hm.set hcons
  | poke f => exact ⟨hi, hm⟩

theorem run_has (g : Glue) (ops : Ops D W E) {all : Bool} {P : Tree D W E S → Obj D W E S → Prop} (prog : List (Op D W E S)) :
    ∀ {l : List Bool} {ts : List (Tree D W E S)} {s : State D W E S}, Kept g ops (runTrees ts prog) all P → Inv ts s.vars → Has all P l ts s.vars →
      Inv (runTrees ts prog) (run g ops s prog).2.vars ∧
      Has all P (marks l prog (run g ops s prog).1) (runTrees ts prog) (run g ops s prog).2.vars := by
  induction prog with
  | nil => intro l ts s _ hi hm; exact ⟨hi, hm⟩
  | cons op prog ih =>
    intro l ts s hk hi hm
    have hsub : ∀ t ∈ ts, t ∈ runTrees ts (op :: prog) := fun t ht => (runTrees_prefix (op :: prog) ts).subset ht
    obtain ⟨h1, h2⟩ := step_has g ops ⟨hk.built, fun t ht => hk.kept t (hsub t ht)⟩ hi hm op
    exact ih hk h1 h2

theorem reach_has (g : Glue) (ops : Ops D W E) {all : Bool} {P : Tree D W E S → Obj D W E S → Prop} (w : W) (prog : List (Op D W E S))
    (hk : Kept g ops (runTrees [] prog) all P) : Inv (runTrees [] prog) (run g ops (State.init w) prog).2.vars ∧
      Has all P (marks [] prog (run g ops (State.init w) prog).1) (runTrees [] prog) (run g ops (State.init w) prog).2.vars :=
  run_has g ops prog hk ⟨by simp [ShapeL, State.init], by simp⟩ ⟨rfl, by simp⟩

end Pigro.Eff
