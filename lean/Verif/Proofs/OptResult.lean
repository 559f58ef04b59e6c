import Verif.Spec.OptResult
import Verif.Proofs.EffHistory
import Verif.Proofs.LazyMore
/-!
# Proofs: calls with comparisons that are pure functions
-/
namespace Pigro.Eff.Opt
variable {D W E S O : Type}

@[simp] theorem fnInvs_append (a b : List (Ev D E S)) : fnInvs (a ++ b) = fnInvs a ++ fnInvs b := List.filterMap_append ..
@[simp] theorem nes_append (a b : List (Ev D E S)) : nes (a ++ b) = nes a ++ nes b := List.filterMap_append ..

theorem callFun_fn (g : Glue) (m : Meaning D W E S O) (u : UFn D W E S) (h : m.FnOk u.toFnCode) (args : List (Val D)) (env : Env D W E S) :
    ∃ u' env', callFun g (.regularized u) args env = (.ok (u.ret.regularize (m.fn u.toFnCode args)), .regularized u', env') ∧
      m.obs env'.w = m.obs env.w ∧ fnInvs env'.log = fnInvs env.log ++ [(u.id, args)] ∧ nes env'.log = nes env.log := by
  have hr := (h u.st args env.w).1
  refine ⟨keep g.regParamByValue u (invoke u .fn args env).2.1, (invoke u .fn args env).2.2, ?_, (h u.st args env.w).2, ?_, ?_⟩
  · simp [callFun, invoke, hr]
  · simp [invoke, fnInvs]
  · simp [invoke, nes]

theorem callFun_leaf (g : Glue) (m : Meaning D W E S O) (u : UFn D W E S) (h : m.LeafOk u.toFnCode) (args : List (Val D)) (env : Env D W E S) :
    ∃ u' env', callFun g (.wrapDep u) args env = (.ok (u.ret.regularize (m.leaf u.toFnCode (m.obs env.w))), .wrapDep u', env') ∧
      m.obs env'.w = m.obs env.w ∧ fnInvs env'.log = fnInvs env.log ∧ nes env'.log = nes env.log := by
  have hr := (h u.st env.w).1
  refine ⟨keep g.wrapParamByValue u (invoke u .dep [] env).2.1, (invoke u .dep [] env).2.2, ?_, (h u.st env.w).2, ?_, ?_⟩
  · simp [callFun, invoke, hr]
  · simp [invoke, fnInvs]
  · simp [invoke, nes]

/-- Whether a value counts as changed, given the last one. -/
def flagC (ne : Val D → Val D → Bool) (nn : Val D → Bool) (ret : RetTy) (old : Option (Val D)) (v : Val D) : Bool :=
  match old with
  | none => ret != .val || nn v
  | some y => ret == .val && ne y v

theorem coreTail_cmp (g : Glue) (ne : Val D → Val D → Bool) (nn : Val D → Bool) (f f' : Fun D W E S) (cache : Cache D) (rs : List (LazyRes D))
    (env env1 : Env D W E S) (args : List (Val D)) (ret : RetTy) (x : Val D)
    (h : (!cache.engaged || any LazyRes.isChanged rs) = true) (hr : readValues rs = some args)
    (hc : callFun g f args env = (.ok (ret.regularize x), f', env1)) (hf : cache.Fits ret) :
    ∃ cache' env', coreTail g (ofCmp ne nn) f cache rs env =
        (.ok ⟨ret.regularize x, flagC ne nn ret cache.val? (ret.regularize x), g.coreLive cache⟩, f', cache', env') ∧
      cache'.val? = some (ret.regularize x) ∧ env'.w = env1.w ∧ fnInvs env'.log = fnInvs env1.log ∧
      nes env'.log = nes env1.log ++ cmpOne ret cache.val? (ret.regularize x) := by
  unfold coreTail
  simp only [h, if_true, hr, hc]
  rcases cache with old | o
  · simp only [Cache.Fits] at hf
    subst hf
    rcases old with _ | c
    · exact ⟨_, _, rfl, rfl, rfl, by simp [ofCmp, fnInvs],
        by simp [ofCmp, nes, cmpOne, Cache.val?]⟩
    · exact ⟨_, _, rfl, rfl, rfl, by simp [ofCmp, fnInvs],
        by simp [ofCmp, nes, cmpOne, Cache.val?]⟩
  · simp only [Cache.Fits] at hf
    have hx : (ret.regularize x : Val D) = .rvoid := by cases ret <;> simp_all [RetTy.regularize]
    rw [hx]
    rcases o with ⟨b⟩
    have hfl : flagC ne nn ret (Cache.rv ⟨b⟩ : Cache D).val? .rvoid = OptRV.ne ⟨b⟩ OptRV.ofRV := by
      cases b <;> cases ret <;> simp_all [flagC, Cache.val?, OptRV.ne, OptRV.ofRV, OptRV.toBool]
    rw [hfl]
    refine ⟨_, _, rfl, ?_, rfl, rfl, ?_⟩
    · simp [Cache.val?, OptRV.assign, OptRV.toBool]
    · cases b <;> simp [cmpOne, hf]

/-- Everything about one evaluation of a consistent object. -/
def StepC [CxxData D] (g : Glue) (ne : Val D → Val D → Bool) (nn : Val D → Bool) (m : Meaning D W E S O) (t : Tree D W E S) (o : Obj D W E S) (env : Env D W E S) : Prop :=
  ∃ r o' env', evalN g (ofCmp ne nn) o env = (.ok r, o', env') ∧ r.value = m.eager (m.obs env.w) t ∧ r.live = true ∧ m.obs env'.w = m.obs env.w ∧
    (g.Retains → LastAll m (m.obs env.w) t o') ∧ (r.isChanged = false → ∀ v, o.lastVal = some v → v = r.value) ∧
    (∀ o1, LastAll m o1 t o → r.isChanged = changed ne m o1 (m.obs env.w) t ∧ fnInvs env'.log = fnInvs env.log ++ recalc ne m o1 (m.obs env.w) t ∧
      nes env'.log = nes env.log ++ recmp ne m o1 (m.obs env.w) t) ∧
    (o.Pristine → r.isChanged = firstFlag nn m (m.obs env.w) t ∧ fnInvs env'.log = fnInvs env.log ++ m.firstCalls (m.obs env.w) t ∧
      nes env'.log = nes env.log)

/-- Of several. -/
def StepCL [CxxData D] (g : Glue) (ne : Val D → Val D → Bool) (nn : Val D → Bool) (m : Meaning D W E S O) (ts : List (Tree D W E S)) (ds : List (Obj D W E S))
    (env : Env D W E S) : Prop :=
  ∃ rs ds' env', evalDeps g (ofCmp ne nn) ds env = (.ok rs, ds', env') ∧ rs.map LazyRes.value = ts.map (m.eager (m.obs env.w)) ∧
    rs.all (·.live) = true ∧ m.obs env'.w = m.obs env.w ∧ (g.Retains → LastAllL m (m.obs env.w) ts ds') ∧
    (rs.any (·.isChanged) = false → ∀ vs, ds.map Obj.lastVal = vs.map some → vs = rs.map LazyRes.value) ∧
    (∀ o1, LastAllL m o1 ts ds → rs.map LazyRes.isChanged = ts.map (changed ne m o1 (m.obs env.w)) ∧
      fnInvs env'.log = fnInvs env.log ++ (ts.map (recalc ne m o1 (m.obs env.w))).flatten ∧
      nes env'.log = nes env.log ++ (ts.map (recmp ne m o1 (m.obs env.w))).flatten) ∧
    (Obj.PristineL ds → fnInvs env'.log = fnInvs env.log ++ (ts.map (m.firstCalls (m.obs env.w))).flatten ∧ nes env'.log = nes env.log)

theorem flagC_sound (ne : Val D → Val D → Bool) (nn : Val D → Bool) (hs : ∀ a b, ne a b = false → a = b) (ret : RetTy) (cache : Cache D) (hf : cache.Fits ret) (x : Val D)
    (h : flagC ne nn ret cache.val? (ret.regularize x) = false) : ∀ v, cache.val? = some v → v = ret.regularize x := by
  intro v hv
  rw [hv] at h
  simp only [flagC, Bool.and_eq_false_iff] at h
  rcases h with h | h
  · have hx : (ret.regularize x : Val D) = .rvoid := by cases ret <;> simp_all [RetTy.regularize]
    rcases cache with old | ⟨b⟩
    · simp only [Cache.Fits] at hf; subst hf; simp at h
    · rw [hx]; cases b; simp only [Cache.val?] at hv; split at hv <;> simp_all
  · exact hs _ _ h

mutual
theorem evalN_stepC [CxxData D] (g : Glue) (ne : Val D → Val D → Bool) (nn : Val D → Bool) (hs : ∀ a b, ne a b = false → a = b) (m : Meaning D W E S O) (t : Tree D W E S)
    (o : Obj D W E S) (env : Env D W E S) (h : Shape t o) (hok : m.Ok t) (hnl : m.NoLone t) (hsafe : g.SafeFor t) (hc : Cons m t o) :
    StepC g ne nn m t o env := by
  match t with
  | .value v =>
    simp only [Shape] at h; subst h
    refine ⟨_, _, _, rfl, by simp [Meaning.eager], ?_, rfl, ?_, ?_, ?_, ?_⟩
    · rcases hsafe with h | ⟨_, _, _, h, _⟩ <;> simp [h]
    · intro _; simp [LastAll, Obj.lastVal]
    · intro _ v hv; exact (Option.some.inj hv).symm
    · intro o1 _; simp [changed, recalc, recmp]
    · intro _; simp [firstFlag, Meaning.firstCalls]
  | .function c =>
    simp only [Shape] at h
    obtain ⟨u, cache, rfl, hv, hf, rfl⟩ := h
    have hlive : (!(g.resultByRef && g.valueParamByValue)) = true := by
      rcases hsafe with h | ⟨_, _, _, h, _⟩ <;> simp [h]
    have hd : evalDeps g (ofCmp ne nn) [Obj.lazyValue (.data CxxData.zero) true] env =
        (.ok [⟨.data CxxData.zero, true, true⟩], [(Obj.lazyValue (.data CxxData.zero) true : Obj D W E S)], env) := by
      simp [evalDeps, evalN, Out.map, hlive]
    have hlf : m.LeafOk u.toFnCode := by cases hok; assumption
    obtain ⟨u', env', hcall, hobs, hfn, hcmp⟩ := callFun_leaf g m u hlf [.data CxxData.zero] env
    obtain ⟨cache', env2, htail, hnew, hw, hfn2, hcmp2⟩ := coreTail_cmp g ne nn (.wrapDep u) (.wrapDep u') cache
      [⟨.data CxxData.zero, true, true⟩] env env' [.data CxxData.zero] u.ret
      (m.leaf u.toFnCode (m.obs env.w)) (by simp [any, anyS]) (by rfl) hcall hf
    refine ⟨_, _, _, (evalN_core_ok g _ (.wrapDep u) cache _ env hd).trans (by rw [htail]), by simp [Meaning.eager],
      coreLive_of_safe hsafe (.inl rfl) hf, by rw [hw, hobs], ?_, flagC_sound ne nn hs _ _ hf _, ?_, ?_⟩
    · intro ⟨ha, _, _, _⟩
      simp only [ha, keep_false, LastAll, Obj.lastVal]
      rw [hnew, Meaning.eager]
    · intro o1 hl
      simp only [LastAll, Obj.lastVal] at hl
      refine ⟨?_, by simp [recalc, hfn2, hfn], ?_⟩
      · simp only [hl, flagC, changed, Meaning.eager]
      · simp only [hcmp2, hcmp, hl, recmp, cmpOne, Meaning.eager]
    · intro hp
      simp only [Obj.Pristine] at hp
      refine ⟨?_, by simp [Meaning.firstCalls, hfn2, hfn], ?_⟩
      · simp only [hp.1, flagC, firstFlag, Meaning.eager]
      · simp [hcmp2, hcmp, hp.1, cmpOne]
  | .lazy c ts =>
    simp only [Shape] at h
    obtain ⟨u, cache, ds, rfl, hf, hds, rfl⟩ := h
    simp only [Cons] at hc
    obtain ⟨_, _, _, heq, hcache, hcl⟩ := hc
    simp only [Obj.unregularized.injEq, Obj.unwrapped.injEq, Obj.core.injEq] at heq
    obtain ⟨rfl, rfl, rfl⟩ := heq
    have hfn : m.FnOk u.toFnCode := by cases hok; assumption
    have hoks : ∀ t ∈ ts, m.Ok t := by cases hok; assumption
    have hnls : ∀ t ∈ ts, m.NoLone t := by cases hnl; assumption
    have hlone : ∀ t, ts = [t] → ∀ o vs, m.eager o t ≠ .tup vs := by cases hnl; assumption
    obtain ⟨rs, ds', env1, he, hval, hlive, hobs, hret, hunch, hlast, hprist⟩ :=
      evalDeps_stepC g ne nn hs m ts ds env hds hoks hnls hsafe.sub hcl
    have hrv : readValues rs = some (ts.map (m.eager (m.obs env.w))) := by
      rw [readValues_live hlive, hval]
      intro r hr
      subst hr
      have hlen : ts.length = 1 := by
        have := congrArg List.length hval; simpa using this.symm
      obtain ⟨t, ht⟩ := List.length_eq_one_iff.1 hlen
      have := hlone t ht (m.obs env.w)
      rw [ht] at hval
      simp only [List.map_cons, List.map_nil, List.cons.injEq, and_true] at hval
      rw [← hval] at this
      cases hx : r.value with
      | tup vs => exact absurd hx (this vs)
      | _ => rfl
    have hclive : g.coreLive cache = true := coreLive_of_safe hsafe (.inr ⟨ts, rfl⟩) hf
    have hthru : (g.resultByRef && (g.facadeParamByValue || g.unwrapParamByValue)) = false := by
      rcases hsafe with h | ⟨_, h2, h3, _, _⟩
      · simp [h]
      · simp [h2, h3]
    have hflag : ∀ o1, LastAllL m o1 ts ds → any LazyRes.isChanged rs = (ts.map (changed ne m o1 (m.obs env.w))).any id := by
      intro o1 hl
      rw [any_eq, map_isChanged_any, (hlast o1 hl).1]
    rw [StepC]
    simp only [evalN_facade, evalN_core_ok g (ofCmp ne nn) (.regularized u) cache ds env he]
    by_cases hch : (!cache.engaged || any LazyRes.isChanged rs) = true
    · obtain ⟨u', env2, hcall, hobs2, hfn2, hcmp2⟩ := callFun_fn g m u hfn (ts.map (m.eager (m.obs env.w))) env1
      obtain ⟨cache', env3, htail, hnew, hw, hfn3, hcmp3⟩ := coreTail_cmp g ne nn (.regularized u) (.regularized u') cache rs env1 env2 _ u.ret _ hch hrv
        hcall hf
      rw [htail]
      refine ⟨_, _, _, rfl, by simp [LazyRes.through, Meaning.eager], by simp [LazyRes.through, hclive, hthru], by simp only; rw [hw, hobs2, hobs], ?_, ?_, ?_, ?_⟩
      · intro hR
        have hR' := hret hR
        obtain ⟨ha, hb, hc, hd⟩ := hR
        simp only [ha, hb, hc, hd, keep_false, LastAll, Bool.or_self]
        exact ⟨_, _, _, rfl, by rw [hnew, Meaning.eager], hR'⟩
      · exact flagC_sound ne nn hs _ _ hf _
      · intro o1 hl
        simp only [LastAll] at hl
        obtain ⟨_, _, _, heq, hlc, hlds⟩ := hl
        simp only [Obj.unregularized.injEq, Obj.unwrapped.injEq, Obj.core.injEq] at heq
        obtain ⟨rfl, rfl, rfl⟩ := heq
        have hany : any LazyRes.isChanged rs = true := by
          rw [Cache.engaged_val?, hlc] at hch
          simpa using hch
        have hfl := (hflag o1 hlds).symm.trans hany
        obtain ⟨-, b2, b3⟩ := hlast o1 hlds
        refine ⟨?_, ?_, ?_⟩
        · simp only [LazyRes.through, changed, hfl, Bool.true_and, hlc, flagC]
          rw [Meaning.eager, Meaning.eager]
        · simp only [hfn3, hfn2, b2, recalc, hfl, if_true, List.append_assoc]
        · simp only [hcmp3, hcmp2, b3, recmp, hfl, hlc, cmpOne, true_and, List.append_assoc]
          rw [Meaning.eager, Meaning.eager]
      · intro hp
        simp only [Obj.Pristine] at hp
        obtain ⟨b2, b3⟩ := hprist hp.2
        refine ⟨?_, ?_, ?_⟩
        · simp only [LazyRes.through, hp.1, flagC, firstFlag]
          rw [Meaning.eager]
        · simp only [hfn3, hfn2, b2, Meaning.firstCalls, List.append_assoc]
        · simp [hcmp3, hcmp2, b3, hp.1, cmpOne]
    · simp only [Bool.not_eq_true] at hch
      have hch' := hch
      simp only [Bool.or_eq_false_iff, Bool.not_eq_false'] at hch'
      obtain ⟨heng, hany⟩ := hch'
      rw [Cache.engaged_val?] at heng
      obtain ⟨v, hv⟩ := Option.isSome_iff_exists.1 heng
      obtain ⟨vs, hvs1, hvs2⟩ := hcache v hv
      have hvseq := hunch (by rw [← any_eq]; exact hany) vs hvs1
      rw [hval] at hvseq
      have hve : v = m.eager (m.obs env.w) (.lazy u.toFnCode ts) := by
        rw [hvs2, hvseq, Meaning.eager]
      rw [coreTail_kept g (ofCmp ne nn) (.regularized u) cache rs env1 v hany hv]
      refine ⟨_, _, _, rfl, by simp [LazyRes.through, hve], by simp [LazyRes.through, hclive, hthru], hobs, ?_, ?_, ?_, ?_⟩
      · intro hR
        have hR' := hret hR
        obtain ⟨ha, hb, hc, hd⟩ := hR
        simp only [hb, hc, hd, keep_false, keep_self, LastAll, Bool.or_self]
        exact ⟨_, _, _, rfl, by rw [hv, hve], hR'⟩
      · intro _ y hy
        exact Option.some.inj (hy.symm.trans hv)
      · intro o1 hl
        simp only [LastAll] at hl
        obtain ⟨_, _, _, heq, hlc, hlds⟩ := hl
        simp only [Obj.unregularized.injEq, Obj.unwrapped.injEq, Obj.core.injEq] at heq
        obtain ⟨rfl, rfl, rfl⟩ := heq
        have hfl := (hflag o1 hlds).symm.trans hany
        obtain ⟨-, b2, b3⟩ := hlast o1 hlds
        refine ⟨?_, ?_, ?_⟩
        · simp [LazyRes.through, changed, hfl]
        · simp [b2, recalc, hfl]
        · simp [b3, recmp, hfl]
      · intro hp
        simp only [Obj.Pristine] at hp
        rw [hp.1] at hv
        cases hv
theorem evalDeps_stepC [CxxData D] (g : Glue) (ne : Val D → Val D → Bool) (nn : Val D → Bool) (hs : ∀ a b, ne a b = false → a = b) (m : Meaning D W E S O)
    (ts : List (Tree D W E S)) (ds : List (Obj D W E S)) (env : Env D W E S) (h : ShapeL ts ds) (hok : ∀ t ∈ ts, m.Ok t) (hnl : ∀ t ∈ ts, m.NoLone t)
    (hsafe : ∀ t ∈ ts, g.SafeFor t) (hc : ConsL m ts ds) : StepCL g ne nn m ts ds env := by
  match ts with
  | [] =>
    simp only [ShapeL] at h; subst h
    exact ⟨[], [], env, by simp [evalDeps], rfl, rfl, rfl, by simp [LastAllL], fun _ vs hv => by simpa using hv, by simp, by simp⟩
  | t :: ts =>
    simp only [ShapeL] at h
    obtain ⟨d, ds', hd, hds, rfl⟩ := h
    simp only [ConsL] at hc
    obtain ⟨_, _, heq, hc1, hc2⟩ := hc
    simp only [List.cons.injEq] at heq
    obtain ⟨rfl, rfl⟩ := heq
    obtain ⟨r, d', env1, e1, e2, e3, e5, e6, e4, e7, e8⟩ := evalN_stepC g ne nn hs m t d env hd
      (hok t (by simp)) (hnl t (by simp)) (hsafe t (by simp)) hc1
    obtain ⟨rs, ds'', env2, q1, q2, q3, q5, q6, q4, q7, q8⟩ := evalDeps_stepC g ne nn hs m ts ds' env1 hds
      (fun t ht => hok t (by simp [ht])) (fun t ht => hnl t (by simp [ht])) (fun t ht => hsafe t (by simp [ht])) hc2
    rw [e5] at q2 q5 q6 q7 q8
    refine ⟨r :: rs, d' :: ds'', env2, by simp [evalDeps, e1, q1, Out.map], by simp [e2, q2], by simp [e3, q3], q5, ?_, ?_, ?_, ?_⟩
    · intro hR
      simp only [LastAllL]
      exact ⟨_, _, rfl, e6 hR, q6 hR⟩
    · intro hch
      simp only [List.any_cons, Bool.or_eq_false_iff] at hch
      intro vs hvs
      cases vs with
      | nil => simp at hvs
      | cons v vs =>
        simp only [List.map_cons, List.cons.injEq] at hvs
        rw [e4 hch.1 v hvs.1, q4 hch.2 vs hvs.2, List.map_cons]
    · intro o1 hl
      simp only [LastAllL] at hl
      obtain ⟨_, _, heq, hl1, hl2⟩ := hl
      simp only [List.cons.injEq] at heq
      obtain ⟨rfl, rfl⟩ := heq
      obtain ⟨a1, a2, a3⟩ := e7 o1 hl1
      obtain ⟨b1, b2, b3⟩ := q7 o1 hl2
      simp [a1, b1, a2, b2, a3, b3]
    · intro hp
      simp only [Obj.PristineL] at hp
      obtain ⟨-, a2, a3⟩ := e8 hp.1
      obtain ⟨b2, b3⟩ := q8 hp.2
      simp [a2, b2, a3, b3]
end

/-! ### Events -/

theorem coreTail_events (g : Glue) (ops : Ops D W E) (Q : Ev D E S → Prop) (hcall : ∀ k id args a b r, Q (.call k id args a b r))
    (hne : ∀ a b w, Q (.ne a b (ops.ne a b w).1)) (hst : ∀ old new w, Q (.store old new (ops.store old new w).1))
    (f : Fun D W E S) (cache : Cache D) (rs : List (LazyRes D)) (env : Env D W E S) (h : ∀ ev ∈ env.log, Q ev) :
    ∀ ev ∈ (coreTail g ops f cache rs env).2.2.2.log, Q ev := by
  unfold coreTail
  split
  · split
    · exact h
    · rename_i values _
      have hc : ∀ ev ∈ (callFun g f values env).2.2.log, Q ev := by
        have hi : ∀ (u : UFn D W E S) k args, ∀ ev ∈ (invoke u k args env).2.2.log, Q ev := by
          intro u k args ev hev
          simp only [invoke, List.mem_append, List.mem_singleton] at hev
          rcases hev with hev | rfl
          · exact h ev hev
          · exact hcall ..
        rcases f with u | u <;> simp only [callFun] <;> split <;> rename_i hq
        · have := hi u .fn values; rw [hq] at this; exact this
        · have := hi u .fn values; rw [hq] at this; exact this
        · have := hi u .dep []; rw [hq] at this; exact this
        · have := hi u .dep []; rw [hq] at this; exact this
      generalize callFun g f values env = q at hc ⊢
      rcases q with ⟨result | e | _ | _, f1, env1⟩
      · simp only
        have hcmp : ∀ ev ∈ (compare ops cache result env1).2.log, Q ev := by
          rcases cache with ⟨_ | c⟩ | o
          · exact hc
          · intro ev hev
            simp only [compare, List.mem_append, List.mem_singleton] at hev
            rcases hev with hev | rfl
            · exact hc ev hev
            · exact hne ..
          · exact hc
        generalize compare ops cache result env1 = q at hcmp ⊢
        rcases q with ⟨e | b, env2⟩
        · exact hcmp
        · simp only
          have hass : ∀ ev ∈ (assign ops cache result env2).2.2.log, Q ev := by
            rcases cache with old | o
            · intro ev hev
              have : ev ∈ env2.log ++ [Ev.store old result (ops.store old result env2.w).1] := by
                simp only [assign] at hev
                split at hev <;> exact hev
              simp only [List.mem_append, List.mem_singleton] at this
              rcases this with hev | rfl
              · exact hcmp ev hev
              · exact hst ..
            · exact hcmp
          generalize assign ops cache result env2 = q at hass ⊢
          rcases q with ⟨e | _, cache', env3⟩
          · exact hass
          · simp only
            split <;> exact hass
      all_goals exact hc
  · split <;> exact h

mutual
theorem evalN_events (g : Glue) (ops : Ops D W E) (Q : Ev D E S → Prop) (hcall : ∀ k id args a b r, Q (.call k id args a b r))
    (hne : ∀ a b w, Q (.ne a b (ops.ne a b w).1)) (hst : ∀ old new w, Q (.store old new (ops.store old new w).1))
    (o : Obj D W E S) (env : Env D W E S) (h : ∀ ev ∈ env.log, Q ev) : ∀ ev ∈ (evalN g ops o env).2.2.log, Q ev := by
  match o with
  | .lazyValue v c => simpa only [evalN] using h
  | .core f cache deps =>
    have hd := evalDeps_events g ops Q hcall hne hst deps env h
    rw [evalN]
    generalize evalDeps g ops deps env = q at hd ⊢
    rcases q with ⟨rs | e | _ | _, ds', env1⟩
    · exact coreTail_events g ops Q hcall hne hst f cache rs env1 hd
    all_goals exact hd
  | .unwrapped i =>
    rw [evalN]
    exact evalN_events g ops Q hcall hne hst i env h
  | .unregularized i =>
    rw [evalN]
    exact evalN_events g ops Q hcall hne hst i env h
theorem evalDeps_events (g : Glue) (ops : Ops D W E) (Q : Ev D E S → Prop) (hcall : ∀ k id args a b r, Q (.call k id args a b r))
    (hne : ∀ a b w, Q (.ne a b (ops.ne a b w).1)) (hst : ∀ old new w, Q (.store old new (ops.store old new w).1))
    (ds : List (Obj D W E S)) (env : Env D W E S) (h : ∀ ev ∈ env.log, Q ev) : ∀ ev ∈ (evalDeps g ops ds env).2.2.log, Q ev := by
  match ds with
  | [] => simpa only [evalDeps] using h
  | d :: ds =>
    have hd := evalN_events g ops Q hcall hne hst d env h
    rw [evalDeps]
    generalize evalN g ops d env = q at hd ⊢
    rcases q with ⟨r | e | _ | _, d', env1⟩
    · exact evalDeps_events g ops Q hcall hne hst ds env1 hd
    all_goals exact hd
end

theorem call0_events (g : Glue) (ops : Ops D W E) (Q : Ev D E S → Prop) (hcall : ∀ k id args a b r, Q (.call k id args a b r))
    (hne : ∀ a b w, Q (.ne a b (ops.ne a b w).1)) (hst : ∀ old new w, Q (.store old new (ops.store old new w).1))
    (o : Obj D W E S) (env : Env D W E S) (h : ∀ ev ∈ env.log, Q ev) : ∀ ev ∈ (call0 g ops o env).2.2.log, Q ev := by
  match o with
  | .lazyValue v c => simpa only [call0] using h
  | .core f cache deps => simpa only [call0] using h
  | .unwrapped i =>
    rw [call0]
    have hd := evalN_events g ops Q hcall hne hst (.unwrapped i) env h
    generalize evalN g ops (.unwrapped i) env = q at hd ⊢
    rcases q with ⟨r | e | _ | _, o', env1⟩ <;> exact hd
  | .unregularized i =>
    rw [call0]
    exact call0_events g ops Q hcall hne hst i env h

/-- Every event of a program is an invocation, or a comparison or copy with the outcome it has. -/
theorem run_events [CxxData D] (g : Glue) (ops : Ops D W E) (Q : Ev D E S → Prop) (hcall : ∀ k id args a b r, Q (.call k id args a b r))
    (hne : ∀ a b w, Q (.ne a b (ops.ne a b w).1)) (hst : ∀ old new w, Q (.store old new (ops.store old new w).1))
    (prog : List (Op D W E S)) : ∀ s : State D W E S, (∀ ev ∈ s.env.log, Q ev) → ∀ ev ∈ (run g ops s prog).2.env.log, Q ev := by
  induction prog with
  | nil => intro s h; exact h
  | cons op prog ih =>
    intro s h
    refine ih _ ?_
    cases op with
    | mk f deps => simp only [step]; split <;> exact h
    | copy i => simp only [step]; split <;> exact h
    | call i =>
      simp only [step]
      split
      · exact call0_events g ops Q hcall hne hst _ _ h
      · exact h
    | poll i =>
      simp only [step]
      split
      · exact evalN_events g ops Q hcall hne hst _ _ h
      · exact h
    | poke f => exact h

/-! ### Histories -/

theorem step_frame [CxxData D] (g : Glue) (ops : Ops D W E) (s : State D W E S) (op : Op D W E S) (i : Nat) (o : Obj D W E S)
    (ho : s.vars[i]? = some o) (hop : ¬ op.evaluates i) : (step g ops s op).2.vars[i]? = some o := by
  have hlt : i < s.vars.length := (List.getElem?_eq_some_iff.1 ho).1
  cases op with
  | mk f deps =>
    simp only [step]
    split
    · rw [List.getElem?_append_left hlt]; exact ho
    · exact ho
  | copy j =>
    simp only [step]
    split
    · rw [List.getElem?_append_left hlt]; exact ho
    · exact ho
  | call j =>
    simp only [Op.evaluates] at hop
    simp only [step]
    split
    · rw [List.getElem?_set_ne hop]; exact ho
    · exact ho
  | poll j =>
    simp only [Op.evaluates] at hop
    simp only [step]
    split
    · rw [List.getElem?_set_ne hop]; exact ho
    · exact ho
  | poke f => exact ho

theorem run_frame [CxxData D] (g : Glue) (ops : Ops D W E) (prog : List (Op D W E S)) (i : Nat) (o : Obj D W E S) :
    ∀ s : State D W E S, s.vars[i]? = some o → (∀ op ∈ prog, ¬ op.evaluates i) → (run g ops s prog).2.vars[i]? = some o := by
  induction prog with
  | nil => intro s h _; exact h
  | cons op prog ih =>
    intro s h hops
    exact ih _ (step_frame g ops s op i o h (hops op (by simp))) (fun q hq => hops q (by simp [hq]))

theorem run_append [CxxData D] (g : Glue) (ops : Ops D W E) (a b : List (Op D W E S)) : ∀ s : State D W E S,
    run g ops s (a ++ b) = ((run g ops s a).1 ++ (run g ops (run g ops s a).2 b).1, (run g ops (run g ops s a).2 b).2) := by
  induction a with
  | nil => intro s; rfl
  | cons op a ih => intro s; simp [run, ih]

/-- Variables of reachable states are consistent. -/
theorem reach_consC [CxxData D] (g : Glue) (ne : Val D → Val D → Bool) (nn : Val D → Bool) (hs : ∀ a b, ne a b = false → a = b) (m : Meaning D W E S O) (w : W)
    (prog : List (Op D W E S)) (hok : ∀ t ∈ runTrees [] prog, TreeOk g m t) (hg : g.Retains ∨ g.Drops) (i : Nat) (t : Tree D W E S)
    (ht : (runTrees [] prog)[i]? = some t) :
    ∃ o c us, (run g (ofCmp ne nn) (State.init w) prog).2.vars[i]? = some o ∧ t = .lazy c us ∧ Shape t o ∧ Cons m t o ∧ (g.Drops → o.Pristine) := by
  have hz : ∀ t ∈ runTrees [] prog, ∃ c us, t = .lazy c us := (reach_inv Glue.retained w prog).lz
  have drop : g.Drops → Inv (runTrees [] prog) (run g (ofCmp ne nn) (State.init w) prog).2.vars ∧
      ∀ o, (run g (ofCmp ne nn) (State.init w) prog).2.vars[i]? = some o → o.Pristine := by
    intro hg
    obtain ⟨h1, h2⟩ := reach_has (all := true) g (ofCmp ne nn) w prog
      ⟨pristine_built, fun t ht o env hsh hp _ => by
        obtain ⟨c, us, rfl⟩ := hz t ht
        exact dropped_pristine g _ hg c us o env hsh hp⟩
    exact ⟨h1, fun o ho => h2.2 i t o (.inr rfl) ht ho⟩
  have key : Inv (runTrees [] prog) (run g (ofCmp ne nn) (State.init w) prog).2.vars ∧
      ∀ o, (run g (ofCmp ne nn) (State.init w) prog).2.vars[i]? = some o → Cons m t o ∧ (g.Drops → o.Pristine) := by
    by_cases hd : g.Drops
    · obtain ⟨h1, h2⟩ := drop hd
      exact ⟨h1, fun o ho => ⟨Pristine.cons m t o (h1.shape.get? ht ho) (h2 o ho), fun _ => h2 o ho⟩⟩
    · have hg : g.Retains := hg.resolve_right hd
      obtain ⟨h1, h2⟩ := reach_has (all := true) g (ofCmp ne nn) w prog
        ⟨cons_built m, fun t ht o env hsh hc _ => by
          obtain ⟨k1, k2, k3⟩ := hok t ht
          obtain ⟨r, o', env', he, -, -, -, hl, -⟩ := evalN_stepC g ne nn hs m t o env hsh k1 k2 k3 hc
          rw [he]
          exact (hl hg).cons⟩
      exact ⟨h1, fun o ho => ⟨h2.2 i t o (.inr rfl) ht ho, fun h => absurd h hd⟩⟩
  obtain ⟨hi, hcons⟩ := key
  have hlt : i < (run g (ofCmp ne nn) (State.init w) prog).2.vars.length := by
    rw [← hi.shape.length]; exact (List.getElem?_eq_some_iff.1 ht).1
  have ho := List.getElem?_eq_getElem hlt
  obtain ⟨c, us, rfl⟩ := hi.lz t (List.mem_of_getElem? ht)
  exact ⟨_, c, us, ho, rfl, hi.shape.get? ht ho, hcons _ ho⟩

end Pigro.Eff.Opt
