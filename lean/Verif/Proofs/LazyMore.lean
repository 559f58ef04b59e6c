import Verif.Proofs.HistoryFresh
/-!
# Further lemmas about one call: definedness, cache contents, recomputation, frames
-/
namespace Pigro
variable {D W E S O : Type} [CxxData D]

/-! ### No undefined behaviour -/

/-- Outcome neither undefined nor ill-formed. -/
def Out.defined {α : Type} : Out E α → Bool
  | .ok _ => true
  | .thrown _ => true
  | _ => false

theorem coreTail_defined (g : Glue) (f : Fun D W E S) (cache : Cache D) (rs : List (LazyRes D))
    (env : Env D W S) (hf : cache.Fits f.ret) (hl : rs.all (·.live) = true) :
    (coreTail g f cache rs env).1.defined = true ∧
    ∀ r, (coreTail g f cache rs env).1 = .ok r → r.live = g.coreLive cache := by
  by_cases hch : (!cache.engaged || any LazyRes.isChanged rs) = true
  · have hrv : ∃ args, readValues rs = some args := by simp [readValues, hl]
    obtain ⟨args, hrv⟩ := hrv
    rcases hcall : f.call g args env with ⟨o, f', env'⟩
    have ho : o.defined = true ∧ ∀ v, o = .ok v → ∃ x, v = f.ret.regularize x := by
      cases f with
      | regularized u =>
        rcases h : u.invoke .fn args env with ⟨q, u', env''⟩
        cases q <;> simp [Fun.call, h] at hcall <;> obtain ⟨rfl, _, _⟩ := hcall <;>
          simp [Out.defined, Fun.ret]
        exact ⟨_, rfl⟩
      | wrapDep u =>
        rcases h : u.invoke .dep [] env with ⟨q, u', env''⟩
        cases q <;> simp [Fun.call, h] at hcall <;> obtain ⟨rfl, _, _⟩ := hcall <;>
          simp [Out.defined, Fun.ret]
        exact ⟨_, rfl⟩
    cases o with
    | ok v =>
      obtain ⟨x, rfl⟩ := ho.2 v rfl
      rw [coreTail_run g f f' cache rs env env' args f.ret x hch hrv hcall hf]
      refine ⟨rfl, ?_⟩
      intro r hr; simp only [Out.ok.injEq] at hr; subst hr; rfl
    | thrown e => simp [coreTail, hch, hrv, hcall, Out.map, Out.defined]
    | ub => exact absurd ho.1 (by simp [Out.defined])
    | illFormed => exact absurd ho.1 (by simp [Out.defined])
  · simp only [Bool.not_eq_true] at hch
    have hch' := hch
    simp only [Bool.or_eq_false_iff, Bool.not_eq_false'] at hch'
    obtain ⟨heng, hany⟩ := hch'
    rw [Cache.engaged_val?] at heng
    obtain ⟨v, hv⟩ := Option.isSome_iff_exists.1 heng
    rw [coreTail_skip g f cache rs env v hany hv]
    refine ⟨rfl, ?_⟩
    intro r hr; simp only [Out.ok.injEq] at hr; subst hr; rfl

omit [CxxData D] in
theorem coreLive_of_safe {g : Glue} {c : FnCode D W E S} {t : Tree D W E S} {cache : Cache D}
    (hsafe : g.SafeFor t) (ht : t = .function c ∨ ∃ ts, t = .lazy c ts) (hf : cache.Fits c.ret) :
    g.coreLive cache = true := by
  rcases hsafe with h | ⟨h, _, _, _, h'⟩
  · cases cache <;> simp [Glue.coreLive, h]
  · rcases ht with rfl | ⟨ts, rfl⟩
    · cases h' with
      | function _ h' => cases cache <;> simp_all [Glue.coreLive, Cache.Fits]
    · cases h' with
      | lazy _ _ h' => cases cache <;> simp_all [Glue.coreLive, Cache.Fits]

mutual
theorem evalN_defined (g : Glue) (t : Tree D W E S) (o : Obj D W E S) (env : Env D W S)
    (h : Shape t o) (hs : g.SafeFor t) :
    (evalN g o env).1.defined = true ∧ ∀ r, (evalN g o env).1 = .ok r → r.live = true := by
  match t with
  | .value v =>
    simp only [Shape] at h; subst h
    have : (!(g.resultByRef && g.valueParamByValue)) = true := by
      rcases hs with h | ⟨_, _, _, h, _⟩ <;> simp [h]
    refine ⟨by simp [evalN, Out.defined], ?_⟩
    intro r hr
    simp only [evalN, Out.ok.injEq] at hr
    rw [← hr]; exact this
  | .function c =>
    simp only [Shape] at h
    obtain ⟨u, cache, rfl, hv, hf, rfl⟩ := h
    have hlive : (!(g.resultByRef && g.valueParamByValue)) = true := by
      rcases hs with h | ⟨_, _, _, h, _⟩ <;> simp [h]
    have hd : evalDeps g [Obj.lazyValue (.data CxxData.zero) true] env =
        (.ok [⟨.data CxxData.zero, true, true⟩],
          [(Obj.lazyValue (.data CxxData.zero) true : Obj D W E S)], env) := by
      simp [evalDeps, evalN, Out.map, hlive]
    rw [evalN_core_ok g (.wrapDep u) cache _ env hd]
    have := coreTail_defined g (.wrapDep u) cache [⟨.data CxxData.zero, true, true⟩] env hf rfl
    rw [coreLive_of_safe hs (.inl rfl) hf] at this
    exact this
  | .lazy c ts =>
    simp only [Shape] at h
    obtain ⟨u, cache, ds, rfl, hf, hds, rfl⟩ := h
    have hthru : (g.resultByRef && (g.facadeParamByValue || g.unwrapParamByValue)) = false := by
      rcases hs with h | ⟨_, h2, h3, _, _⟩
      · simp [h]
      · simp [h2, h3]
    rw [evalN_facade]
    have hd := evalDeps_defined g ts ds env hds hs.sub
    rcases he : evalDeps g ds env with ⟨o, ds', env1⟩
    rw [he] at hd
    simp only [hthru]
    by_cases ho : o.isOk = true
    · obtain ⟨rs, rfl⟩ : ∃ rs, o = .ok rs := by cases o <;> simp_all [Out.isOk]
      rw [evalN_core_ok g (.regularized u) cache ds env he]
      have := coreTail_defined g (.regularized u) cache rs env1 hf (hd.2 rs rfl)
      rw [coreLive_of_safe hs (.inr ⟨ts, rfl⟩) hf] at this
      rcases hc : (coreTail g (.regularized u) cache rs env1).1 with r | _ | _ | _ <;>
        rw [hc] at this <;> simp_all [Out.map, Out.defined, LazyRes.through]
    · simp only [Bool.not_eq_true] at ho
      rw [evalN_core_fail g (.regularized u) cache ds env he ho]
      cases o <;> simp_all [Out.isOk, Out.map, Out.defined]
theorem evalDeps_defined (g : Glue) (ts : List (Tree D W E S)) (ds : List (Obj D W E S))
    (env : Env D W S) (h : ShapeL ts ds) (hs : ∀ t ∈ ts, g.SafeFor t) :
    (evalDeps g ds env).1.defined = true ∧
    ∀ rs, (evalDeps g ds env).1 = .ok rs → rs.all (·.live) = true := by
  match ts with
  | [] => simp only [ShapeL] at h; subst h; simp [evalDeps, Out.defined]
  | t :: ts =>
    simp only [ShapeL] at h
    obtain ⟨d, ds', hd, hds, rfl⟩ := h
    have h1 := evalN_defined g t d env hd (hs t (by simp))
    rcases he : evalN g d env with ⟨o, d', env1⟩
    rw [he] at h1
    rw [evalDeps, he]
    cases o with
    | ok r =>
      have h2 := evalDeps_defined g ts ds' env1 hds (fun t ht => hs t (by simp [ht]))
      rcases he2 : evalDeps g ds' env1 with ⟨o2, ds'', env2⟩
      rw [he2] at h2
      have := h1.2 r rfl
      cases o2 with
      | ok rs =>
        simp only [he2]
        refine ⟨rfl, ?_⟩
        intro rs' hrs
        simp only [Out.map, Out.ok.injEq] at hrs
        subst hrs
        simp [this, h2.2 rs rfl]
      | _ => simp_all [Out.map, Out.defined]
    | _ => simp_all [Out.map, Out.defined]
end

/-! ### The core node: exact effect -/

/-- After the dependencies produced `rs`: the wrapped function is invoked iff nothing is cached or a
dependency reports a change. -/
theorem coreTail_exact (g : Glue) (u : UFn D W E S) (cache : Cache D) (rs : List (LazyRes D))
    (env : Env D W S) (hf : cache.Fits u.ret) (hl : rs.all (·.live) = true) :
    let args := tupleCTAD Val.asTuple (rs.map LazyRes.value)
    let fires := cache.val?.isNone || rs.any (·.isChanged)
    let t := coreTail g (.regularized u) cache rs env
    fnCalls t.2.2.2.log = fnCalls env.log ++ (if fires then [(u.id, args)] else []) ∧
    cmps t.2.2.2.log = cmps env.log ++ (if fires then
      match (u.run u.st args env.w).1 with
      | .ok v => cmpOne u.ret cache.val? (u.ret.regularize v)
      | .error _ => []
      else []) ∧
    (∀ r, t.1 = .ok r → t.2.2.1.val? = some r.value ∧
      (ReflNe D → r.isChanged = flag cache.val? r.value)) ∧
    (t.1.isOk = false → t.2.2.1 = cache) := by
  intro args fires t
  have hrv : readValues rs = some args := by
    simp only [readValues, hl, if_true, transform_eq, args]
  have hfires : (!cache.engaged || any LazyRes.isChanged rs) = fires := by
    rw [any_eq, Cache.engaged_val?]
    simp only [fires]
    congr 1
    cases cache.val? <;> rfl
  by_cases hch : fires = true
  · rcases hr : (u.run u.st args env.w).1 with e | v
    · have hcall : Fun.call g (.regularized u) args env =
          (.thrown e, .regularized (keep g.regParamByValue u (u.invoke .fn args env).2.1),
            (u.invoke .fn args env).2.2) := by
        simp [Fun.call, UFn.invoke, hr]
      have ht : t = (.thrown e, .regularized (keep g.regParamByValue u (u.invoke .fn args env).2.1),
          cache, (u.invoke .fn args env).2.2) := by
        simp only [t, coreTail, hfires, hch, if_true, hrv, hcall, Out.map]
      rw [ht]
      refine ⟨?_, ?_, ?_, ?_⟩
      · simp [UFn.invoke, fnCalls, hch]
      · simp [UFn.invoke, cmps]
      · simp
      · simp
    · have hcall : Fun.call g (.regularized u) args env =
          (.ok (u.ret.regularize v), .regularized (keep g.regParamByValue u (u.invoke .fn args env).2.1),
            (u.invoke .fn args env).2.2) := by
        simp [Fun.call, UFn.invoke, hr]
      have ht : t = _ := coreTail_run g (.regularized u) _ cache rs env _ args u.ret v
        (by rw [hfires]; exact hch) hrv hcall hf
      rw [ht]
      refine ⟨?_, ?_, ?_, ?_⟩
      · simp [UFn.invoke, fnCalls, hch, (cmpEvents_simple (S := S) cache _).2.2.1]
      · simp [UFn.invoke, cmps, hch, cmpEvents_cmps hf]
      · intro r hr
        simp only [Out.ok.injEq] at hr
        subst hr
        refine ⟨Cache.assign_val? hf v, ?_⟩
        intro _
        simp only [Cache.ne_val? hf, flag]
      · simp [Out.isOk]
  · simp only [Bool.not_eq_true] at hch
    have hch' := hch
    simp only [fires, Bool.or_eq_false_iff] at hch'
    obtain ⟨hnone, hany⟩ := hch'
    obtain ⟨v, hv⟩ : ∃ v, cache.val? = some v := by
      cases hx : cache.val? with
      | none => simp [hx] at hnone
      | some v => exact ⟨v, rfl⟩
    have ht : t = _ := coreTail_skip g (.regularized u) cache rs env v
      (by rw [any_eq]; exact hany) hv
    rw [ht]
    refine ⟨by simp [hch], by simp [hch], ?_, by simp [Out.isOk]⟩
    intro r hr
    simp only [Out.ok.injEq] at hr
    subst hr
    exact ⟨hv, fun hr => by simp [flag, hv, Val.ne_refl hr]⟩

/-! ### Cache of the called object -/

/-- The hand-overs between caller and cache are by reference. -/
def Glue.keepsCache (g : Glue) : Prop :=
  g.bindFrontCopies = false ∧ g.unwrapParamByValue = false ∧ g.facadeParamByValue = false

omit [CxxData D] in
theorem readValues_dead {rs : List (LazyRes D)} (h : rs.all (·.live) = false) :
    readValues rs = none := by simp [readValues, h]

/-- Evaluating a lazy function: the cached value afterwards and the change flag. -/
theorem evalN_cache (g : Glue) (hg : g.keepsCache) (c : FnCode D W E S) (ts : List (Tree D W E S))
    (o : Obj D W E S) (env : Env D W S) (h : Shape (.lazy c ts) o) :
    (∀ r, (evalN g o env).1 = .ok r → (evalN g o env).2.1.lastVal = some r.value ∧
      (ReflNe D → r.isChanged = flag o.lastVal r.value)) ∧
    ((evalN g o env).1.isOk = false → (evalN g o env).2.1.lastVal = o.lastVal) := by
  simp only [Shape] at h
  obtain ⟨u, cache, ds, rfl, hf, hds, rfl⟩ := h
  obtain ⟨ha, hc, hd⟩ := hg
  rw [evalN_facade]
  simp only [hc, hd, Bool.or_self, Bool.and_false, keep_false]
  have hthru : ∀ o : Out E (LazyRes D), o.map (LazyRes.through false) = o := by
    intro o; cases o <;> simp [Out.map, LazyRes.through]
  rw [hthru]
  simp only [Obj.lastVal]
  rcases he : evalDeps g ds env with ⟨q, ds', env1⟩
  by_cases hq : q.isOk = true
  · obtain ⟨rs, rfl⟩ : ∃ rs, q = .ok rs := by cases q <;> simp_all [Out.isOk]
    rw [evalN_core_ok g (.regularized u) cache ds env he]
    simp only [ha, keep_false, Obj.lastVal]
    cases hl : rs.all (·.live) with
    | true =>
      have := coreTail_exact g u cache rs env1 hf hl
      simp only at this
      refine ⟨this.2.2.1, fun h => by rw [this.2.2.2 h]⟩
    | false =>
      have hrv := readValues_dead hl
      by_cases hch : (!cache.engaged || any LazyRes.isChanged rs) = true
      · simp [coreTail, hch, hrv]
      · simp only [Bool.not_eq_true] at hch
        simp only [Bool.or_eq_false_iff, Bool.not_eq_false'] at hch
        obtain ⟨heng, hany⟩ := hch
        rw [Cache.engaged_val?] at heng
        obtain ⟨v, hv⟩ := Option.isSome_iff_exists.1 heng
        rw [coreTail_skip g _ cache rs env1 v hany hv]
        refine ⟨?_, by simp [Out.isOk]⟩
        intro r hr
        simp only [Out.ok.injEq] at hr
        subst hr
        exact ⟨hv, fun hr => by simp [flag, hv, Val.ne_refl hr]⟩
  · simp only [Bool.not_eq_true] at hq
    rw [evalN_core_fail g (.regularized u) cache ds env he hq]
    refine ⟨?_, fun _ => rfl⟩
    intro r hr
    cases q <;> simp_all [Out.isOk, Out.map]

/-- The call operator without arguments: result in terms of the evaluation. -/
theorem call0_result (g : Glue) (c : FnCode D W E S) (ts : List (Tree D W E S)) (o : Obj D W E S)
    (env : Env D W S) (h : Shape (.lazy c ts) o) :
    (∀ x, (call0 g o env).1 = .ok x →
      ∃ r, (evalN g o env).1 = .ok r ∧ x = if c.ret = .val then some r.value else none) ∧
    (∀ e, (call0 g o env).1 = .thrown e ↔ (evalN g o env).1 = .thrown e) ∧
    (∀ r, (evalN g o env).1 = .ok r → r.live = true →
      (call0 g o env).1 = .ok (if c.ret = .val then some r.value else none)) ∧
    ((call0 g o env).1 ≠ .illFormed ∨ (evalN g o env).1 = .illFormed) := by
  simp only [Shape] at h
  obtain ⟨u, cache, ds, rfl, hf, hds, rfl⟩ := h
  rw [call0_facade, evalN_facade]
  have hrv : ∀ x : Option (Val D),
      (if (Obj.core (.regularized u) cache ds : Obj D W E S).valueIsRV then none else x) =
      if u.ret = .val then x else none := by
    intro x
    cases cache with
    | opt o => simp only [Cache.Fits] at hf; simp [Obj.valueIsRV, hf]
    | rv o => simp only [Cache.Fits] at hf; simp [Obj.valueIsRV, hf]
  rcases h1 : (evalN g (Obj.core (.regularized u) cache ds) env).1 with r0 | e | _ | _
  · simp only [Out.map, LazyRes.through, hrv]
    refine ⟨?_, ?_, ?_, ?_⟩
    · intro x hx
      refine ⟨_, rfl, ?_⟩
      split at hx
      · simp only [Out.ok.injEq] at hx; exact hx.symm
      · cases hx
    · intro e; split <;> simp
    · intro r hr hl
      simp only [Out.ok.injEq] at hr
      subst hr
      simp only [Bool.and_eq_true, Bool.not_eq_true', Bool.and_eq_false_iff,
        Bool.or_eq_false_iff] at hl
      have : (r0.live && !(g.resultByRef && g.unwrapParamByValue)) = true := by
        rcases hl with ⟨q, q' | q'⟩
        · simp [q, q']
        · simp [q, q'.2]
      simp only [this, if_true]
    · left; split <;> simp
  all_goals simp [Out.map]

/-! ### Recomputation after a complete evaluation, and first evaluation -/

theorem zipWith_flag_map (l : List (Tree D W E S)) (p q : Tree D W E S → Val D) :
    List.zipWith flag ((l.map p).map some) (l.map q) =
      l.map fun d => Val.ne (p d) (q d) := by
  induction l with
  | nil => rfl
  | cons a l ih => simp only [List.map_cons, List.zipWith_cons_cons, ih, flag]

mutual
theorem expect_lastAll (m : Meaning D W E S O) (o1 o2 : O) (t : Tree D W E S) (o : Obj D W E S)
    (h : LastAll m o1 t o) : expect m o2 t o = m.recalc o1 o2 t := by
  match t with
  | .value v => simp [expect, Meaning.recalc]
  | .function c => simp [expect, Meaning.recalc]
  | .lazy c ts =>
    simp only [LastAll] at h
    obtain ⟨f, cache, ds, rfl, hv, hl⟩ := h
    rw [expect, Meaning.recalc, expectL_lastAll m o1 o2 ts ds hl, hv, hl.lastVals]
    simp only [stale, zipWith_flag_map, Option.isNone_some, Bool.false_or]
theorem expectL_lastAll (m : Meaning D W E S O) (o1 o2 : O) (ts : List (Tree D W E S))
    (ds : List (Obj D W E S)) (h : LastAllL m o1 ts ds) :
    expectL m o2 ts ds = (ts.map (m.recalc o1 o2)).flatten := by
  match ts with
  | [] => simp [expectL]
  | t :: ts =>
    simp only [LastAllL] at h
    obtain ⟨d, ds', rfl, h1, h2⟩ := h
    simp [expectL, expect_lastAll m o1 o2 t d h1, expectL_lastAll m o1 o2 ts ds' h2]
end

mutual
theorem expectCmp_lastAll (m : Meaning D W E S O) (o1 o2 : O) (t : Tree D W E S)
    (o : Obj D W E S) (hs : Shape t o) (h : LastAll m o1 t o) :
    expectCmp m o2 t o = m.recmp o1 o2 t := by
  match t with
  | .value v => simp [expectCmp, Meaning.recmp]
  | .function c =>
    simp only [Shape] at hs
    obtain ⟨u, cache, rfl, hv, hf, rfl⟩ := hs
    simp only [LastAll, Obj.lastVal] at h
    simp [expectCmp, Meaning.recmp, h, cmpOne]
  | .lazy c ts =>
    simp only [Shape] at hs
    obtain ⟨u, cache', ds', rfl, hf, hds, rfl⟩ := hs
    simp only [LastAll] at h
    obtain ⟨f, cache, ds, heq, hv, hl⟩ := h
    simp only [Obj.unregularized.injEq, Obj.unwrapped.injEq, Obj.core.injEq] at heq
    obtain ⟨rfl, rfl, rfl⟩ := heq
    rw [expectCmp, Meaning.recmp, expectCmpL_lastAll m o1 o2 ts _ hds hl, hv, hl.lastVals]
    simp only [stale, zipWith_flag_map, Option.isNone_some, Bool.false_or, cmpOne]
    congr 1
    by_cases hr : u.ret = .val <;> simp [hr]
theorem expectCmpL_lastAll (m : Meaning D W E S O) (o1 o2 : O) (ts : List (Tree D W E S))
    (ds : List (Obj D W E S)) (hs : ShapeL ts ds) (h : LastAllL m o1 ts ds) :
    expectCmpL m o2 ts ds = (ts.map (m.recmp o1 o2)).flatten := by
  match ts with
  | [] => simp [expectCmpL]
  | t :: ts =>
    simp only [LastAllL] at h
    obtain ⟨d, ds', rfl, h1, h2⟩ := h
    simp only [ShapeL] at hs
    obtain ⟨d', ds'', hs1, hs2, heq⟩ := hs
    simp only [List.cons.injEq] at heq
    obtain ⟨rfl, rfl⟩ := heq
    simp [expectCmpL, expectCmp_lastAll m o1 o2 t d hs1 h1, expectCmpL_lastAll m o1 o2 ts ds' hs2 h2]
end

mutual
theorem expect_pristine (m : Meaning D W E S O) (ob : O) (t : Tree D W E S) (o : Obj D W E S)
    (hs : Shape t o) (h : o.Pristine) :
    expect m ob t o = m.firstCalls ob t ∧ expectCmp m ob t o = [] := by
  match t with
  | .value v => simp [expect, Meaning.firstCalls, expectCmp]
  | .function c =>
    simp only [Shape] at hs
    obtain ⟨u, cache, rfl, hv, hf, rfl⟩ := hs
    simp only [Obj.Pristine] at h
    simp [expect, Meaning.firstCalls, expectCmp, h.1, cmpOne]
  | .lazy c ts =>
    simp only [Shape] at hs
    obtain ⟨u, cache, ds, rfl, hf, hds, rfl⟩ := hs
    simp only [Obj.Pristine] at h
    have := expectL_pristine m ob ts ds hds h.2
    rw [expect, Meaning.firstCalls, expectCmp, this.1, this.2, h.1]
    simp [stale, cmpOne]
theorem expectL_pristine (m : Meaning D W E S O) (ob : O) (ts : List (Tree D W E S))
    (ds : List (Obj D W E S)) (hs : ShapeL ts ds) (h : Obj.PristineL ds) :
    expectL m ob ts ds = (ts.map (m.firstCalls ob)).flatten ∧ expectCmpL m ob ts ds = [] := by
  match ts with
  | [] => simp [expectL, expectCmpL]
  | t :: ts =>
    simp only [ShapeL] at hs
    obtain ⟨d, ds', hs1, hs2, rfl⟩ := hs
    simp only [Obj.PristineL] at h
    have h1 := expect_pristine m ob t d hs1 h.1
    have h2 := expectL_pristine m ob ts ds' hs2 h.2
    simp [expectL, expectCmpL, h1, h2]
end

/-! ### Frames -/

theorem step_frame (g : Glue) (s : State D W E S) (op : Op D W E S) (i : Nat) (o : Obj D W E S)
    (ho : s.vars[i]? = some o) (hop : ¬ op.evaluates i) :
    (step g s op).2.vars[i]? = some o := by
  have hlt : i < s.vars.length := (List.getElem?_eq_some_iff.1 ho).1
  cases op with
  | mk f deps =>
    simp only [step]
    split
    · rw [List.getElem?_append_left hlt]; exact ho
    · exact ho
  | copy j =>
    simp only [step]
    split
    · rw [List.getElem?_append_left hlt]; exact ho
    · exact ho
  | call j =>
    simp only [Op.evaluates] at hop
    simp only [step]
    split
    · rw [List.getElem?_set_ne hop]; exact ho
    · exact ho
  | poll j =>
    simp only [Op.evaluates] at hop
    simp only [step]
    split
    · rw [List.getElem?_set_ne hop]; exact ho
    · exact ho
  | poke f => exact ho

theorem run_frame (g : Glue) (ops : List (Op D W E S)) (i : Nat) (o : Obj D W E S) :
    ∀ s : State D W E S, s.vars[i]? = some o → (∀ op ∈ ops, ¬ op.evaluates i) →
    (run g s ops).2.vars[i]? = some o := by
  induction ops with
  | nil => intro s h _; exact h
  | cons op ops ih =>
    intro s h hops
    exact ih _ (step_frame g s op i o h (hops op (by simp))) (fun q hq => hops q (by simp [hq]))

omit [CxxData D] in
theorem runTrees_get (ts : List (Tree D W E S)) (ops : List (Op D W E S)) (i : Nat)
    (t : Tree D W E S) (h : ts[i]? = some t) : (runTrees ts ops)[i]? = some t := by
  obtain ⟨l, hl⟩ := runTrees_prefix ops ts
  rw [← hl, List.getElem?_append_left (List.getElem?_eq_some_iff.1 h).1]
  exact h

theorem vars_of_tree (g : Glue) (w : W) (ops : List (Op D W E S)) (i : Nat) (t : Tree D W E S)
    (h : (runTrees [] ops)[i]? = some t) :
    ∃ o c us, (run g (State.init w) ops).2.vars[i]? = some o ∧ t = .lazy c us ∧ Shape t o := by
  have hi := reach_inv g w ops
  have h1 := (List.getElem?_eq_some_iff.1 h).1
  have h2 : i < (run g (State.init w) ops).2.vars.length := by rw [← hi.shape.length]; exact h1
  have ho := List.getElem?_eq_getElem h2
  obtain ⟨c, us, ht⟩ := hi.lz t (List.mem_of_getElem? h)
  exact ⟨_, c, us, ho, ht, hi.shape.get? h ho⟩

theorem step_call (g : Glue) (s : State D W E S) (i : Nat) (o : Obj D W E S)
    (ho : s.vars[i]? = some o) : step g s (.call i) =
      (.ret (call0 g o s.env).1, State.mk (s.vars.set i (call0 g o s.env).2.1) (call0 g o s.env).2.2) := by
  simp only [step, ho]

theorem step_poll (g : Glue) (s : State D W E S) (i : Nat) (o : Obj D W E S)
    (ho : s.vars[i]? = some o) : step g s (.poll i) =
      (.polled (evalN g o s.env).1, State.mk (s.vars.set i (evalN g o s.env).2.1) (evalN g o s.env).2.2) := by
  simp only [step, ho]

theorem set_get {α : Type} (l : List α) (i : Nat) (a b : α) (h : l[i]? = some a) :
    (l.set i b)[i]? = some b := by
  have := (List.getElem?_eq_some_iff.1 h).1
  simp [this]

end Pigro
