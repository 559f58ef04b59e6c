import Verif.Spec.Throwing
import Verif.Proofs.LazyMore
/-!
# Freshness with functions that may throw
-/
namespace Pigro
variable {D W E S O : Type} [CxxData D]

mutual
/-- Every engaged cache of a wrapped function holds its value on the last values of the dependencies. -/
def ConsE (m : MeaningE D W E S O) : Tree D W E S → Obj D W E S → Prop
  | .value _, _ => True
  | .function _, _ => True
  | .lazy c ts, o => ∃ f cache ds, o = .unregularized (.unwrapped (.core f cache ds)) ∧
      (∀ v, cache.val? = some v → ∃ vs x, ds.map Obj.lastVal = vs.map some ∧ m.fn c vs = .ok x ∧ v = c.ret.regularize x) ∧ ConsEL m ts ds
/-- Element-wise `ConsE`. -/
def ConsEL (m : MeaningE D W E S O) : List (Tree D W E S) → List (Obj D W E S) → Prop
  | [], _ => True
  | t :: ts, ds => ∃ d ds', ds = d :: ds' ∧ ConsE m t d ∧ ConsEL m ts ds'
end

/-- One evaluation of a consistent object. -/
def StepE (g : Glue) (m : MeaningE D W E S O) (t : Tree D W E S) (o : Obj D W E S) (env : Env D W S) : Prop :=
  ∃ q o' env', evalN g o env = (q, o', env') ∧ m.obs env'.w = m.obs env.w ∧
    ((∃ e, q = .thrown e ∧ m.eager (m.obs env.w) t = .error e) ∨
     ∃ r, q = .ok r ∧ m.eager (m.obs env.w) t = .ok r.value ∧ r.live = true ∧ (r.isChanged = false → o.lastVal = some r.value) ∧
      (g.Retains → ConsE m t o' ∧ o'.lastVal = some r.value))

/-- Of several. -/
def StepEL (g : Glue) (m : MeaningE D W E S O) (ts : List (Tree D W E S)) (ds : List (Obj D W E S)) (env : Env D W S) : Prop :=
  ∃ q ds' env', evalDeps g ds env = (q, ds', env') ∧ m.obs env'.w = m.obs env.w ∧
    ((∃ e, q = .thrown e ∧ m.eagerL (m.obs env.w) ts = .error e) ∨
     ∃ rs, q = .ok rs ∧ m.eagerL (m.obs env.w) ts = .ok (rs.map LazyRes.value) ∧ rs.all (·.live) = true ∧ rs.length = ts.length ∧
      (rs.any (·.isChanged) = false → ds.map Obj.lastVal = (rs.map LazyRes.value).map some) ∧
      (g.Retains → ConsEL m ts ds' ∧ ds'.map Obj.lastVal = (rs.map LazyRes.value).map some))

theorem coreTail_throw (g : Glue) (f f' : Fun D W E S) (cache : Cache D) (rs : List (LazyRes D)) (env env' : Env D W S) (args : List (Val D)) (e : E)
    (h : (!cache.engaged || any LazyRes.isChanged rs) = true) (hr : readValues rs = some args) (hc : f.call g args env = (.thrown e, f', env')) :
    coreTail g f cache rs env = (.thrown e, f', cache, env') := by
  simp [coreTail, h, hr, hc, Out.map]

omit [CxxData D] in
theorem call_user (g : Glue) (f : Fun D W E S) (args : List (Val D)) (env : Env D W S) :
    ∃ f' env', (∀ u, f = .regularized u → (∃ u', f' = .regularized u') ∧ env'.w = (u.run u.st args env.w).2.2 ∧
        f.call g args env = ((match (u.run u.st args env.w).1 with
          | .ok v => Out.ok (u.ret.regularize v)
          | .error e => .thrown e), f', env')) ∧
      (∀ u, f = .wrapDep u → (∃ u', f' = .wrapDep u') ∧ env'.w = (u.run u.st [] env.w).2.2 ∧
        f.call g args env = ((match (u.run u.st [] env.w).1 with
          | .ok v => Out.ok (u.ret.regularize v)
          | .error e => .thrown e), f', env')) := by
  cases f with
  | regularized u =>
    refine ⟨.regularized (keep g.regParamByValue u (u.invoke .fn args env).2.1), (u.invoke .fn args env).2.2, ?_, by simp⟩
    intro u' hu
    cases hu
    refine ⟨⟨_, rfl⟩, rfl, ?_⟩
    simp only [Fun.call, UFn.invoke]
    split <;> rename_i h <;> simp only [Prod.mk.injEq] at h <;> obtain ⟨h1, rfl, rfl⟩ := h <;> simp only [h1]
  | wrapDep u =>
    refine ⟨.wrapDep (keep g.wrapParamByValue u (u.invoke .dep [] env).2.1), (u.invoke .dep [] env).2.2, by simp, ?_⟩
    intro u' hu
    cases hu
    refine ⟨⟨_, rfl⟩, rfl, ?_⟩
    simp only [Fun.call, UFn.invoke]
    split <;> rename_i h <;> simp only [Prod.mk.injEq] at h <;> obtain ⟨h1, rfl, rfl⟩ := h <;> simp only [h1]

theorem cache_unchanged (hs : SoundNe D) {cache : Cache D} {ret : RetTy} (hf : cache.Fits ret) (x : Val D)
    (h : cache.ne (ret.regularize x) = false) : cache.val? = some (ret.regularize x) := by
  rw [Cache.ne_val? hf] at h
  rcases hcv : cache.val? with _ | y
  · rw [hcv] at h; simp at h
  · rw [hcv] at h; simp only at h; rw [Val.ne_sound hs _ _ h]

mutual
theorem evalN_stepE (hs : SoundNe D) (g : Glue) (m : MeaningE D W E S O) (t : Tree D W E S) (o : Obj D W E S) (env : Env D W S) (h : Shape t o)
    (hok : m.Ok t) (hnl : m.NoLone t) (hsafe : g.SafeFor t) (hc : ConsE m t o) : StepE g m t o env := by
  match t with
  | .value v =>
    simp only [Shape] at h; subst h
    refine ⟨_, _, _, rfl, rfl, .inr ⟨_, rfl, rfl, ?_, fun _ => rfl, fun _ => ⟨by simp [ConsE], rfl⟩⟩⟩
    rcases hsafe with h | ⟨_, _, _, h, _⟩ <;> simp [h]
  | .function c =>
    simp only [Shape] at h
    obtain ⟨u, cache, rfl, hv, hf, rfl⟩ := h
    have hlive : (!(g.resultByRef && g.valueParamByValue)) = true := by
      rcases hsafe with h | ⟨_, _, _, h, _⟩ <;> simp [h]
    have hd : evalDeps g [Obj.lazyValue (.data CxxData.zero) true] env =
        (.ok [⟨.data CxxData.zero, true, true⟩], [(Obj.lazyValue (.data CxxData.zero) true : Obj D W E S)], env) := by
      simp [evalDeps, evalN, Out.map, hlive]
    obtain ⟨f', env', -, hcall⟩ := call_user g (.wrapDep u) [.data CxxData.zero] env
    obtain ⟨⟨u', rfl⟩, hw, hcall⟩ := hcall u rfl
    have hlf : (u.run u.st [] env.w).1 = m.leaf u.toFnCode (m.obs env.w) ∧ m.obs (u.run u.st [] env.w).2.2 = m.obs env.w := by
      cases hok with
      | function _ h => exact h _ _
    rw [hlf.1] at hcall
    rw [StepE, evalN_core_ok g (.wrapDep u) cache _ env hd]
    cases hleaf : m.leaf u.toFnCode (m.obs env.w) with
    | error e =>
      rw [hleaf] at hcall
      rw [coreTail_throw g _ _ cache _ env env' [.data CxxData.zero] e (by simp [any, anyS]) (by rfl) hcall]
      exact ⟨_, _, _, rfl, by rw [hw, hlf.2], .inl ⟨e, rfl, by simp [MeaningE.eager, hleaf]⟩⟩
    | ok v =>
      rw [hleaf] at hcall
      rw [coreTail_run g _ _ cache _ env env' [.data CxxData.zero] u.ret v (by simp [any, anyS]) (by rfl) hcall hf]
      refine ⟨_, _, _, rfl, by simp only; rw [hw, hlf.2], .inr ⟨_, rfl, by simp [MeaningE.eager, hleaf],
        coreLive_of_safe hsafe (.inl rfl) hf, cache_unchanged hs hf v, ?_⟩⟩
      intro ⟨ha, _, _, _⟩
      refine ⟨by simp [ConsE], ?_⟩
      simp only [ha, keep_false, Obj.lastVal]
      exact Cache.assign_val? hf _
  | .lazy c ts =>
    simp only [Shape] at h
    obtain ⟨u, cache, ds, rfl, hf, hds, rfl⟩ := h
    simp only [ConsE] at hc
    obtain ⟨_, _, _, heq, hcache, hcl⟩ := hc
    simp only [Obj.unregularized.injEq, Obj.unwrapped.injEq, Obj.core.injEq] at heq
    obtain ⟨rfl, rfl, rfl⟩ := heq
    have hfn : ∀ s args w, (u.run s args w).1 = m.fn u.toFnCode args ∧ m.obs (u.run s args w).2.2 = m.obs w := by
      cases hok with
      | lazy _ _ h => exact h
    have hoks : ∀ t ∈ ts, m.Ok t := by cases hok; assumption
    have hnls : ∀ t ∈ ts, m.NoLone t := by cases hnl; assumption
    have hlone : ∀ t, ts = [t] → ∀ o vs, m.eager o t ≠ .ok (.tup vs) := by cases hnl; assumption
    have hthru : (g.resultByRef && (g.facadeParamByValue || g.unwrapParamByValue)) = false := by
      rcases hsafe with h | ⟨_, h2, h3, _, _⟩
      · simp [h]
      · simp [h2, h3]
    obtain ⟨q, ds', env1, he, hobs, hq⟩ := evalDeps_stepE hs g m ts ds env hds hoks hnls hsafe.sub hcl
    rw [StepE, evalN_facade]
    rcases hq with ⟨e, rfl, hee⟩ | ⟨rs, rfl, hval, hlive, hlen, hunch, hret⟩
    · rw [evalN_core_fail g (.regularized u) cache ds env he rfl]
      exact ⟨_, _, _, rfl, hobs, .inl ⟨e, rfl, by simp [MeaningE.eager, hee]⟩⟩
    have hrv : readValues rs = some (rs.map LazyRes.value) := by
      refine readValues_live hlive ?_
      intro r hr
      subst hr
      obtain ⟨t, ht⟩ := List.length_eq_one_iff.1 hlen.symm
      have := hlone t ht (m.obs env.w)
      rw [ht] at hval
      simp only [MeaningE.eagerL] at hval
      cases hx : m.eager (m.obs env.w) t with
      | error e => simp [hx] at hval
      | ok v =>
        simp only [hx, List.map_cons, List.map_nil, Except.ok.injEq, List.cons.injEq, and_true] at hval
        rw [hx] at this
        subst hval
        cases hy : r.value with
        | tup vs => exact absurd (by rw [hy]) (this vs)
        | _ => rfl
    have hclive : g.coreLive cache = true := coreLive_of_safe hsafe (.inr ⟨ts, rfl⟩) hf
    rw [evalN_core_ok g (.regularized u) cache ds env he]
    by_cases hch : (!cache.engaged || any LazyRes.isChanged rs) = true
    · obtain ⟨f', env2, hcall, -⟩ := call_user g (.regularized u) (rs.map LazyRes.value) env1
      obtain ⟨⟨u', rfl⟩, hw, hcall⟩ := hcall u rfl
      rw [(hfn _ _ _).1] at hcall
      have hw2 : m.obs env2.w = m.obs env.w := by rw [hw, (hfn _ _ _).2, hobs]
      cases hfv : m.fn u.toFnCode (rs.map LazyRes.value) with
      | error e =>
        rw [hfv] at hcall
        rw [coreTail_throw g _ _ cache rs env1 env2 _ e hch hrv hcall]
        exact ⟨_, _, _, rfl, hw2, .inl ⟨e, rfl, by simp [MeaningE.eager, hval, hfv]⟩⟩
      | ok v =>
        rw [hfv] at hcall
        rw [coreTail_run g _ _ cache rs env1 env2 _ u.ret v hch hrv hcall hf]
        refine ⟨_, _, _, rfl, hw2, .inr ⟨_, rfl, by simp [MeaningE.eager, hval, hfv, LazyRes.through], by simp [LazyRes.through, hclive, hthru], ?_, ?_⟩⟩
        · exact cache_unchanged hs hf v
        · intro hR
          obtain ⟨hR1, hR2⟩ := hret hR
          obtain ⟨ha, hb, hc, hd⟩ := hR
          simp only [ha, hb, hc, hd, keep_false, ConsE, Bool.or_self, Obj.lastVal]
          refine ⟨⟨_, _, _, rfl, ?_, hR1⟩, Cache.assign_val? hf v⟩
          intro x hx
          rw [Cache.assign_val? hf v] at hx
          exact ⟨_, v, hR2, hfv, (Option.some.inj hx).symm⟩
    · simp only [Bool.not_eq_true] at hch
      have hch' := hch
      simp only [Bool.or_eq_false_iff, Bool.not_eq_false'] at hch'
      obtain ⟨heng, hany⟩ := hch'
      rw [Cache.engaged_val?] at heng
      obtain ⟨v, hv⟩ := Option.isSome_iff_exists.1 heng
      obtain ⟨vs, x, hvs1, hvs2, hvs3⟩ := hcache v hv
      have hun := hunch (by rw [← any_eq]; exact hany)
      have hvseq : vs = rs.map LazyRes.value :=
        (List.map_inj_right (fun _ _ h => Option.some.inj h)).1 (hvs1.symm.trans hun)
      subst hvseq
      rw [coreTail_skip g (.regularized u) cache rs env1 v hany hv]
      refine ⟨_, _, _, rfl, hobs, .inr ⟨_, rfl, by simp [MeaningE.eager, hval, hvs2, hvs3, LazyRes.through],
        by simp [LazyRes.through, hclive, hthru], fun _ => hv, ?_⟩⟩
      intro hR
      obtain ⟨hR1, hR2⟩ := hret hR
      obtain ⟨ha, hb, hc, hd⟩ := hR
      simp only [hb, hc, hd, keep_false, keep_self, ConsE, Bool.or_self, Obj.lastVal]
      refine ⟨⟨_, _, _, rfl, ?_, hR1⟩, hv⟩
      intro y hy
      rw [hv] at hy
      cases hy
      exact ⟨_, x, hR2, hvs2, hvs3⟩
theorem evalDeps_stepE (hs : SoundNe D) (g : Glue) (m : MeaningE D W E S O) (ts : List (Tree D W E S)) (ds : List (Obj D W E S)) (env : Env D W S)
    (h : ShapeL ts ds) (hok : ∀ t ∈ ts, m.Ok t) (hnl : ∀ t ∈ ts, m.NoLone t) (hsafe : ∀ t ∈ ts, g.SafeFor t)
    (hc : ConsEL m ts ds) : StepEL g m ts ds env := by
  match ts with
  | [] =>
    simp only [ShapeL] at h; subst h
    exact ⟨.ok [], [], env, by simp [evalDeps], rfl, .inr ⟨[], rfl, rfl, rfl, rfl, fun _ => rfl, fun _ => ⟨by simp [ConsEL], rfl⟩⟩⟩
  | t :: ts =>
    simp only [ShapeL] at h
    obtain ⟨d, ds', hd, hds, rfl⟩ := h
    simp only [ConsEL] at hc
    obtain ⟨_, _, heq, hc1, hc2⟩ := hc
    simp only [List.cons.injEq] at heq
    obtain ⟨rfl, rfl⟩ := heq
    obtain ⟨q, d', env1, e1, e2, e3⟩ := evalN_stepE hs g m t d env hd (hok t (by simp)) (hnl t (by simp)) (hsafe t (by simp)) hc1
    rcases e3 with ⟨e, rfl, hee⟩ | ⟨r, rfl, e3, e4, e5, e6⟩
    · exact ⟨.thrown e, d' :: ds', env1, by simp [evalDeps, e1, Out.map], e2, .inl ⟨e, rfl, by simp [MeaningE.eagerL, hee]⟩⟩
    obtain ⟨q, ds'', env2, q1, q2, q3⟩ := evalDeps_stepE hs g m ts ds' env1 hds
      (fun t ht => hok t (by simp [ht])) (fun t ht => hnl t (by simp [ht])) (fun t ht => hsafe t (by simp [ht])) hc2
    rw [e2] at q2 q3
    rcases q3 with ⟨e, rfl, hee⟩ | ⟨rs, rfl, q3, q4, q5, q6, q7⟩
    · exact ⟨.thrown e, d' :: ds'', env2, by simp [evalDeps, e1, q1, Out.map], q2, .inl ⟨e, rfl, by simp [MeaningE.eagerL, hee, e3]⟩⟩
    refine ⟨.ok (r :: rs), d' :: ds'', env2, by simp [evalDeps, e1, q1, Out.map], q2,
      .inr ⟨r :: rs, rfl, by simp [MeaningE.eagerL, e3, q3], by simp [e4, q4], by simp [q5], ?_, ?_⟩⟩
    · intro hch
      simp only [List.any_cons, Bool.or_eq_false_iff] at hch
      simp [e5 hch.1, q6 hch.2]
    · intro hR
      obtain ⟨a1, a2⟩ := e6 hR
      obtain ⟨b1, b2⟩ := q7 hR
      exact ⟨by simp only [ConsEL]; exact ⟨_, _, rfl, a1, b1⟩, by simp [a2, b2]⟩
end

/-- The result of a call of a consistent lazy function. -/
theorem call0_stepE (hs : SoundNe D) (g : Glue) (m : MeaningE D W E S O) (c : FnCode D W E S) (us : List (Tree D W E S)) (o : Obj D W E S)
    (env : Env D W S) (h : Shape (.lazy c us) o) (hok : TreeOkE g m (.lazy c us)) (hc : ConsE m (.lazy c us) o) :
    (call0 g o env).1 = m.result (m.obs env.w) (.lazy c us) := by
  obtain ⟨q, o', env', he, -, hq⟩ := evalN_stepE hs g m _ o env h hok.1 hok.2.1 hok.2.2 hc
  obtain ⟨-, c2, c3, -⟩ := call0_result g c us o env h
  rcases hq with ⟨e, rfl, hee⟩ | ⟨r, rfl, hv, hl, -⟩
  · rw [(c2 e).2 (by rw [he])]
    simp [MeaningE.result, hee]
  · rw [c3 r (by rw [he]) hl]
    simp [MeaningE.result, hv]

/-! ### Histories -/

omit [CxxData D] in
theorem ConsEL_of_zip (m : MeaningE D W E S O) : ∀ (us : List (Tree D W E S)) (os : List (Obj D W E S)), us.length = os.length →
    (∀ p ∈ us.zip os, ConsE m p.1 p.2) → ConsEL m us os
  | [], _, _, _ => by simp [ConsEL]
  | _ :: _, [], h, _ => by simp at h
  | u :: us, o :: os, h, hp => by
    simp only [ConsEL]
    exact ⟨o, os, rfl, hp (u, o) (by simp), ConsEL_of_zip m us os (by simpa using h) (fun p hp' => hp p (by simp [hp']))⟩

theorem consE_built (m : MeaningE D W E S O) : Built (ConsE m) where
  value v := by simp [ConsE]
  function u _ := by simp [ConsE]
  lazy f us os hl hp _ := by
    simp only [ConsE, detailLazy]
    refine ⟨_, _, _, rfl, ?_, ConsEL_of_zip m us os hl hp⟩
    intro v hv; rw [Cache.empty_val?] at hv; cases hv

mutual
theorem Pristine.consE (m : MeaningE D W E S O) (t : Tree D W E S) (o : Obj D W E S) (h : Shape t o) (hp : o.Pristine) : ConsE m t o := by
  match t with
  | .value v => simp [ConsE]
  | .function c => simp [ConsE]
  | .lazy c ts =>
    simp only [Shape] at h
    obtain ⟨u, cache, ds, rfl, hf, hds, rfl⟩ := h
    simp only [Obj.Pristine] at hp
    simp only [ConsE]
    refine ⟨_, _, _, rfl, ?_, PristineL.consE m ts ds hds hp.2⟩
    intro v hv; rw [hp.1] at hv; cases hv
theorem PristineL.consE (m : MeaningE D W E S O) (ts : List (Tree D W E S)) (ds : List (Obj D W E S)) (h : ShapeL ts ds) (hp : Obj.PristineL ds) :
    ConsEL m ts ds := by
  match ts with
  | [] => simp [ConsEL]
  | t :: ts =>
    simp only [ShapeL] at h
    obtain ⟨d, ds', hd, hds, rfl⟩ := h
    simp only [Obj.PristineL] at hp
    simp only [ConsEL]
    exact ⟨d, ds', rfl, Pristine.consE m t d hd hp.1, PristineL.consE m ts ds' hds hp.2⟩
end

/-- Variables that are not marked are consistent. -/
def Unmarked (m : MeaningE D W E S O) (l : List Bool) (ts : List (Tree D W E S)) (vars : List (Obj D W E S)) : Prop :=
  l.length = ts.length ∧ ∀ (i : Nat) t o, l[i]? = some false → ts[i]? = some t → vars[i]? = some o → ConsE m t o

omit [CxxData D] in
theorem Unmarked.append {m : MeaningE D W E S O} {l : List Bool} {ts : List (Tree D W E S)} {vars : List (Obj D W E S)} (h : Unmarked m l ts vars)
    (hl : ts.length = vars.length) {b : Bool} {t : Tree D W E S} {o : Obj D W E S} (ho : b = false → ConsE m t o) :
    Unmarked m (l ++ [b]) (ts ++ [t]) (vars ++ [o]) := by
  refine ⟨by simp [h.1], ?_⟩
  intro i t' o' hb ht ho'
  rw [List.getElem?_append] at hb ht ho'
  rw [h.1] at hb
  rw [← hl] at ho'
  split at ht
  · rename_i hi
    rw [if_pos hi] at ho' hb
    exact h.2 i t' o' hb ht ho'
  · rename_i hi
    rw [if_neg hi] at ho' hb
    rcases Nat.eq_zero_or_pos (i - ts.length) with h0 | h0
    · simp only [h0, List.getElem?_cons_zero, Option.some.injEq] at ht ho' hb
      rw [← ht, ← ho']; exact ho hb
    · rw [List.getElem?_eq_none (by simp; omega)] at ht; cases ht

omit [CxxData D] in
theorem Unmarked.set {m : MeaningE D W E S O} {l : List Bool} {ts : List (Tree D W E S)} {vars : List (Obj D W E S)} (h : Unmarked m l ts vars)
    {i : Nat} {o : Obj D W E S} (ho : ∀ t, l[i]? = some false → ts[i]? = some t → ConsE m t o) : Unmarked m l ts (vars.set i o) := by
  refine ⟨h.1, ?_⟩
  intro j t' o' hb ht ho'
  rw [List.getElem?_set] at ho'
  split at ho'
  · subst_vars
    split at ho'
    · simp only [Option.some.injEq] at ho'; subst ho'; exact ho t' hb ht
    · cases ho'
  · exact h.2 j t' o' hb ht ho'

omit [CxxData D] in
theorem Unmarked.mark {m : MeaningE D W E S O} {l : List Bool} {ts : List (Tree D W E S)} {vars : List (Obj D W E S)} (h : Unmarked m l ts vars)
    (i : Nat) (o : Obj D W E S) : Unmarked m (l.set i true) ts (vars.set i o) := by
  refine ⟨by simp [h.1], ?_⟩
  intro j t' o' hb ht ho'
  rw [List.getElem?_set] at hb ho'
  by_cases hij : i = j
  · rw [if_pos hij] at hb
    split at hb <;> simp at hb
  · rw [if_neg hij] at hb ho'
    exact h.2 j t' o' hb ht ho'

theorem step_unmarked (hs : SoundNe D) (g : Glue) (hg : g.Retains) (m : MeaningE D W E S O) {l : List Bool} {ts : List (Tree D W E S)}
    {s : State D W E S} (hi : Inv ts s) (hok : ∀ t ∈ ts, TreeOkE g m t) (hm : Unmarked m l ts s.vars) (op : Op D W E S) :
    Unmarked m (markStep l op (step g s op).1) (stepTrees ts op) (step g s op).2.vars := by
  have eval : ∀ (i : Nat) o, s.vars[i]? = some o →
      (∃ e, (evalN g o s.env).1 = .thrown e) ∨
      ((∀ e, (evalN g o s.env).1 ≠ .thrown e) ∧ ∀ t, l[i]? = some false → ts[i]? = some t → ConsE m t (evalN g o s.env).2.1) := by
    intro i o ho
    by_cases hth : ∃ e, (evalN g o s.env).1 = .thrown e
    · exact .inl hth
    · refine .inr ⟨fun e he => hth ⟨e, he⟩, ?_⟩
      intro t hb ht
      obtain ⟨h1, h2, h3⟩ := hok t (List.mem_of_getElem? ht)
      obtain ⟨q, o', env', he, -, hq⟩ := evalN_stepE hs g m t o s.env (hi.shape.get? ht ho) h1 h2 h3 (hm.2 i t o hb ht ho)
      rcases hq with ⟨e, rfl, -⟩ | ⟨r, rfl, -, -, -, hr⟩
      · exact absurd ⟨e, by rw [he]⟩ hth
      · rw [he]; exact (hr hg).1
  cases op with
  | mk f deps =>
    have key := mk_tree hi.shape hi.lz f deps
    simp only [stepTrees, step]
    rcases ha : argTrees ts deps with _ | us
    · rw [key.2 ha]; exact hm
    · obtain ⟨os, hos, hsh, hos2⟩ := key.1 us ha
      rw [hos]
      refine hm.append hi.shape.length ?_
      intro hb
      refine (consE_built m).lazy f us os hsh.length (args_built_of (consE_built m) hi.shape hi.lz deps ?_ us os ha hos2) hsh
      intro i t o hmem ht ho
      have : ArgRef.marked l (.var i : ArgRef D W E S) = false := by
        simp only [List.any_eq_false] at hb
        simpa using hb _ hmem
      simp only [ArgRef.marked] at this
      have hlt : i < l.length := by
        rw [hm.1]
        exact (List.getElem?_eq_some_iff.1 ht).1
      rw [List.getElem?_eq_getElem hlt, Option.getD_some] at this
      exact hm.2 i t o (by rw [List.getElem?_eq_getElem hlt, this]) ht ho
  | copy i =>
    simp only [stepTrees, step]
    rcases ho : s.vars[i]? with _ | o
    · have : ts[i]? = none := by
        rw [List.getElem?_eq_none_iff] at ho ⊢
        rw [hi.shape.length]; exact ho
      rw [this]; exact hm
    · obtain ⟨h2, _⟩ := List.getElem?_eq_some_iff.1 ho
      have h1 : i < ts.length := by rw [hi.shape.length]; exact h2
      have ht : ts[i]? = some ts[i] := List.getElem?_eq_getElem h1
      rw [ht]
      refine hm.append hi.shape.length ?_
      intro hb
      have h3 : i < l.length := by rw [hm.1]; exact h1
      rw [List.getElem?_eq_getElem h3, Option.getD_some] at hb
      exact hm.2 i _ _ (by rw [List.getElem?_eq_getElem h3, hb]) ht ho
  | call i =>
    rcases ho : s.vars[i]? with _ | o
    · simp only [step, ho, markStep, stepTrees]; exact hm
    · have hlt : i < ts.length := by
        rw [hi.shape.length]; exact (List.getElem?_eq_some_iff.1 ho).1
      have ht : ts[i]? = some ts[i] := List.getElem?_eq_getElem hlt
      obtain ⟨c, us, hc⟩ := hi.lz _ (List.getElem_mem hlt)
      have hsh := hi.shape.get? ht ho
      rw [hc] at hsh
      have hobj := call0_obj g c us o s.env hsh
      obtain ⟨-, c2, -, -⟩ := call0_result g c us o s.env hsh
      rw [step_call g s i o ho]
      simp only [stepTrees]
      rcases eval i o ho with ⟨e, he⟩ | ⟨hn, hcons⟩
      · rw [(c2 e).2 he]
        exact hm.mark i _
      · have : markStep l (.call i : Op D W E S) (.ret (call0 g o s.env).1) = l := by
          cases hq : (call0 g o s.env).1 with
          | thrown e => exact absurd ((c2 e).1 hq) (hn e)
          | _ => rfl
        rw [this]
        refine hm.set ?_
        intro t hb ht
        rw [hobj]
        exact hcons t hb ht
  | poll i =>
    rcases ho : s.vars[i]? with _ | o
    · simp only [step, ho, markStep, stepTrees]; exact hm
    · rw [step_poll g s i o ho]
      simp only [stepTrees]
      rcases eval i o ho with ⟨e, he⟩ | ⟨hn, hcons⟩
      · rw [he]
        exact hm.mark i _
      · have : markStep l (.poll i : Op D W E S) (.polled (evalN g o s.env).1) = l := by
          cases hq : (evalN g o s.env).1 with
          | thrown e => exact absurd hq (hn e)
          | _ => rfl
        rw [this]
        exact hm.set hcons
  | poke f => exact hm

theorem run_unmarked (hs : SoundNe D) (g : Glue) (hg : g.Retains) (m : MeaningE D W E S O) (ops : List (Op D W E S)) :
    ∀ {l : List Bool} {ts : List (Tree D W E S)} {s : State D W E S}, Inv ts s → (∀ t ∈ runTrees ts ops, TreeOkE g m t) → Unmarked m l ts s.vars →
      Unmarked m (marks l ops (run g s ops).1) (runTrees ts ops) (run g s ops).2.vars := by
  induction ops with
  | nil => intro l ts s _ _ h; exact h
  | cons op ops ih =>
    intro l ts s hi hok hm
    have hsub : ∀ t ∈ ts, t ∈ runTrees ts (op :: ops) := fun t ht => (runTrees_prefix (op :: ops) ts).subset ht
    exact ih (step_inv g hi op) hok (step_unmarked hs g hg m hi (fun t ht => hok t (hsub t ht)) hm op)

end Pigro
