import Verif.Proofs.HistoryFresh
import Verif.Proofs.LazyHist
import Verif.Spec.UserLazy
/-!
# Lemmas about user-defined lazy functions
-/
namespace Pigro
variable {D W E S O : Type} [CxxData D]

/-! ### Without user-defined lazy functions nothing differs -/

omit [CxxData D] in
mutual
/-- The object as one of the extended model. -/
def Obj.toX : Obj D W E S → XObj D W E S
  | .lazyValue v c => .lazyValue v c
  | .core f cache ds => .core f cache (Obj.toXs ds)
  | .unwrapped i => .unwrapped i.toX
  | .unregularized i => .unregularized i.toX
/-- Several. -/
def Obj.toXs : List (Obj D W E S) → List (XObj D W E S)
  | [] => []
  | d :: ds => d.toX :: Obj.toXs ds
end

omit [CxxData D] in
theorem toXs_eq (ds : List (Obj D W E S)) : Obj.toXs ds = ds.map Obj.toX := by
  induction ds with
  | nil => rfl
  | cons d ds ih => simp [Obj.toXs, ih]

omit [CxxData D] in
theorem keep_toX (b : Bool) (o o' : Obj D W E S) : keep b o.toX o'.toX = (keep b o o').toX := by cases b <;> rfl

omit [CxxData D] in
theorem keep_toXs (b : Bool) (ds ds' : List (Obj D W E S)) : keep b (Obj.toXs ds) (Obj.toXs ds') = Obj.toXs (keep b ds ds') := by cases b <;> rfl

mutual
theorem evalX_toX (g : Glue) : ∀ (o : Obj D W E S) (env : Env D W S),
    evalX g o.toX env = ((evalN g o env).1, (evalN g o env).2.1.toX, (evalN g o env).2.2)
  | .lazyValue v c, env => by simp [Obj.toX, evalX, evalN]
  | .core f cache ds, env => by
    have ih := evalXs_toX g ds env
    rcases h : evalDeps g ds env with ⟨o, ds', env1⟩
    rw [h] at ih
    simp only [Obj.toX, evalX, ih]
    cases o with
    | ok rs =>
      rw [evalN_core_ok g f cache ds env h]
      rcases hc : coreTail g f cache rs env1 with ⟨o, f', cache', env2⟩
      simp [hc, Obj.toX, keep_toXs]
    | _ => simp [evalN, h, Obj.toX, keep_toXs, Out.map]
  | .unwrapped i, env => by
    have ih := evalX_toX g i env
    simp only [Obj.toX, evalX, evalN, ih]
    rcases evalN g i env with ⟨o, i', env'⟩
    simp [keep_toX]
  | .unregularized i, env => by
    have ih := evalX_toX g i env
    simp only [Obj.toX, evalX, evalN, ih]
    rcases evalN g i env with ⟨o, i', env'⟩
    simp [keep_toX]
theorem evalXs_toX (g : Glue) : ∀ (ds : List (Obj D W E S)) (env : Env D W S),
    evalXs g (Obj.toXs ds) env = ((evalDeps g ds env).1, Obj.toXs (evalDeps g ds env).2.1, (evalDeps g ds env).2.2)
  | [], env => by simp [Obj.toXs, evalXs, evalDeps]
  | d :: ds, env => by
    have ih := evalX_toX g d env
    rcases h : evalN g d env with ⟨o, d', env1⟩
    rw [h] at ih
    simp only [Obj.toXs, evalXs, ih, evalDeps, h]
    cases o with
    | ok r =>
      have ih' := evalXs_toX g ds env1
      rcases h' : evalDeps g ds env1 with ⟨o', ds', env2⟩
      rw [h'] at ih'
      simp [ih', h', Obj.toXs]
    | _ => simp [Obj.toXs]
end

omit [CxxData D] in
theorem valueIsRV_toX : ∀ o : Obj D W E S, o.toX.valueIsRV = o.valueIsRV
  | .lazyValue v c => by cases v <;> rfl
  | .core f cache ds => by cases cache <;> rfl
  | .unwrapped i => by simpa [Obj.toX, XObj.valueIsRV, Obj.valueIsRV] using valueIsRV_toX i
  | .unregularized i => by simpa [Obj.toX, XObj.valueIsRV, Obj.valueIsRV] using valueIsRV_toX i

theorem callX_toX (g : Glue) : ∀ (o : Obj D W E S) (env : Env D W S),
    callX g o.toX env = ((call0 g o env).1, (call0 g o env).2.1.toX, (call0 g o env).2.2)
  | .lazyValue v c, env => by simp [Obj.toX, callX, call0]
  | .core f cache ds, env => by simp [Obj.toX, callX, call0]
  | .unwrapped i, env => by
    have ih := evalX_toX g (.unwrapped i) env
    rw [Obj.toX] at ih ⊢
    simp only [callX, call0, ih]
    rcases evalN g (.unwrapped i) env with ⟨o, i', env'⟩
    cases o <;> rfl
  | .unregularized i, env => by
    have ih := callX_toX g i env
    simp only [Obj.toX, callX, call0, ih, valueIsRV_toX]
    rcases call0 g i env with ⟨o, i', env'⟩
    simp [keep_toX]

theorem ensure_toX {ts : List (Tree D W E S)} {vars : List (Obj D W E S)} (h : ShapeL ts vars) (hz : ∀ t ∈ ts, ∃ c us, t = .lazy c us)
    (a : ArgRef D W E S) : a.toX.ensure (Obj.toXs vars) = ((a.resolve vars).bind ensureLazy).map Obj.toX := by
  cases a with
  | value v => simp [ArgRef.toX, XArg.ensure, ArgRef.resolve, ensureLazy_value, Obj.toX]
  | function u =>
    simp only [ArgRef.toX, XArg.ensure, ArgRef.resolve, Option.bind_some, ensureLazy_function]
    split <;> simp [detailLazy, Obj.toX, Obj.toXs, Fun.ret]
  | var i =>
    have hr := resolve_tree h hz (.var i)
    simp only [ArgRef.toX, XArg.ensure, ArgRef.resolve, toXs_eq, List.getElem?_map] at hr ⊢
    rcases hv : vars[i]? with _ | o
    · simp
    · rw [hv] at hr
      have hlen : ∀ (ts : List (Tree D W E S)) (vars : List (Obj D W E S)), ShapeL ts vars → ts.length = vars.length := by
        intro ts
        induction ts with
        | nil => intro vars h; simp only [ShapeL] at h; subst h; rfl
        | cons t ts ih =>
          intro vars h
          simp only [ShapeL] at h
          obtain ⟨d, ds, h1, h2, rfl⟩ := h
          simp [ih _ h2]
      have hi : i < ts.length := by
        rw [hlen _ _ h]
        exact (List.getElem?_eq_some_iff.1 hv).1
      simp only [ArgRef.tree, List.getElem?_eq_getElem hi] at hr
      obtain ⟨o', h1, h2⟩ := hr
      simp only [Option.map_some, Option.bind_some] at h1 ⊢
      obtain ⟨c, us, hc⟩ := hz _ (List.getElem_mem hi)
      have : ShapeL ts vars → ∀ (i : Nat) t o, ts[i]? = some t → vars[i]? = some o → Shape t o := by
        clear h hz hv h1 h2 hi hc
        induction ts generalizing vars with
        | nil => intro _ i t o h; simp at h
        | cons t ts ih =>
          intro h i t' o' h1 h2
          simp only [ShapeL] at h
          obtain ⟨d, ds, h3, h4, rfl⟩ := h
          cases i with
          | zero => simp at h1 h2; subst h1 h2; exact h3
          | succ i => simp at h1 h2; exact ih h4 i t' o' h1 h2
      have hs := this h i _ o (List.getElem?_eq_getElem hi) hv
      rw [hc] at hs
      simp only [Shape] at hs
      obtain ⟨u, cache, ds, -, -, -, rfl⟩ := hs
      rw [ensureLazy_facade]
      rfl

theorem ensureX_toX {ts : List (Tree D W E S)} {vars : List (Obj D W E S)} (h : ShapeL ts vars) (hz : ∀ t ∈ ts, ∃ c us, t = .lazy c us)
    (as : List (ArgRef D W E S)) : ensureX (Obj.toXs vars) (as.map ArgRef.toX) = ((resolveAll vars as).bind ensureAll).map Obj.toXs := by
  induction as with
  | nil => simp [ensureX, resolveAll, ensureAll, Obj.toXs]
  | cons a as ih =>
    simp only [List.map_cons, ensureX, ensure_toX h hz, ih, resolveAll]
    rcases h1 : a.resolve vars with _ | d
    · simp
    · rcases h2 : resolveAll vars as with _ | ds
      · simp
      · simp only [Option.bind_some, ensureAll]
        rcases ensureLazy d with _ | o
        · simp
        · rcases ensureAll ds with _ | os <;> simp [Obj.toXs]

/-- The state as one of the extended model. -/
def State.toX (s : State D W E S) : XState D W E S := ⟨Obj.toXs s.vars, s.env⟩

theorem xstep_toX {ts : List (Tree D W E S)} {s : State D W E S} (g : Glue) (h : Inv ts s) (op : Op D W E S) :
    xstep g s.toX op.toX = ((step g s op).1, (step g s op).2.toX) := by
  cases op with
  | mk f deps =>
    have hb : (resolveAll s.vars deps).bind (pigroLazy f) =
        ((resolveAll s.vars deps).bind ensureAll).map (fun os => .unregularized (.unwrapped (.core (.regularized f) (Cache.empty f.ret) os))) := by
      rcases resolveAll s.vars deps with _ | ds
      · rfl
      · simp only [Option.bind_some, pigroLazy]
        rcases ensureAll ds with _ | os <;> simp [detailLazy, Fun.ret]
    simp only [Op.toX, xstep, step, State.toX, ensureX_toX h.shape h.lz, hb]
    rcases (resolveAll s.vars deps).bind ensureAll with _ | os
    · simp
    · simp [toXs_eq, lazyX, Obj.toX]
  | copy i =>
    simp only [Op.toX, xstep, step, State.toX, toXs_eq, List.getElem?_map]
    rcases s.vars[i]? with _ | o <;> simp
  | call i =>
    simp only [Op.toX, xstep, step, State.toX, toXs_eq, List.getElem?_map]
    rcases s.vars[i]? with _ | o
    · simp
    · simp only [Option.map_some, callX_toX]
      rcases call0 g o s.env with ⟨r, o', env'⟩
      simp [List.map_set]
  | poll i =>
    simp only [Op.toX, xstep, step, State.toX, toXs_eq, List.getElem?_map]
    rcases s.vars[i]? with _ | o
    · simp
    · simp only [Option.map_some, evalX_toX]
      rcases evalN g o s.env with ⟨r, o', env'⟩
      simp [List.map_set]
  | poke h => rfl

theorem xrun_toX (g : Glue) (ops : List (Op D W E S)) : ∀ {ts : List (Tree D W E S)} {s : State D W E S}, Inv ts s →
    xrun g s.toX (ops.map Op.toX) = ((run g s ops).1, (run g s ops).2.toX) := by
  induction ops with
  | nil => intro ts s h; rfl
  | cons op ops ih =>
    intro ts s h
    simp only [List.map_cons, xrun, run, xstep_toX g h op, ih (step_inv g h op)]

/-! ### Freshness -/

omit [CxxData D] in
mutual
/-- The tree of an object. -/
def XObj.tree : XObj D W E S → XTree D W E S
  | .lazyValue v _ => .value v
  | .core (.wrapDep u) _ _ => .function u.toFnCode
  | .core (.regularized u) _ ds => .lazy u.toFnCode (XObj.trees ds)
  | .unwrapped i => i.tree
  | .unregularized i => i.tree
  | .user l => .user l.toLCode
/-- Several. -/
def XObj.trees : List (XObj D W E S) → List (XTree D W E S)
  | [] => []
  | d :: ds => d.tree :: XObj.trees ds
end

omit [CxxData D] in
theorem trees_eq (ds : List (XObj D W E S)) : XObj.trees ds = ds.map XObj.tree := by
  induction ds with
  | nil => rfl
  | cons d ds ih => simp [XObj.trees, ih]

omit [CxxData D] in
/-- The value the object returned at its last evaluation, if any. -/
def XObj.lastVal (m : XMeaning D W E S O) : XObj D W E S → Option (Val D)
  | .lazyValue v _ => some v
  | .core _ cache _ => cache.val?
  | .unwrapped i => i.lastVal m
  | .unregularized i => i.lastVal m
  | .user l => m.last l.toLCode l.st

omit [CxxData D] in
mutual
/-- Every engaged cache of a wrapped function holds its value on the last values of the dependencies; caches have the right type. -/
def GoodX (m : XMeaning D W E S O) : XObj D W E S → Prop
  | .lazyValue _ _ => True
  | .core (.wrapDep u) cache ds => cache.Fits u.ret ∧ ∃ v, ds = [.lazyValue v true]
  | .core (.regularized u) cache ds => cache.Fits u.ret ∧
      (∀ v, cache.val? = some v → ∃ vs, ds.map (XObj.lastVal m) = vs.map some ∧ v = u.ret.regularize (m.fn u.toFnCode vs)) ∧ GoodXs m ds
  | .unwrapped i => GoodX m i
  | .unregularized i => GoodX m i
  | .user _ => True
/-- All of them. -/
def GoodXs (m : XMeaning D W E S O) : List (XObj D W E S) → Prop
  | [] => True
  | d :: ds => GoodX m d ∧ GoodXs m ds
end

/-- One evaluation of a good object. -/
def EvalOk (g : Glue) (m : XMeaning D W E S O) (o : XObj D W E S) (env : Env D W S) : Prop :=
  ∃ r o' env', evalX g o env = (.ok r, o', env') ∧ r.value = m.eager (m.obs env.w) o.tree ∧ r.live = true ∧
    (r.isChanged = false → o.lastVal m = some r.value) ∧ m.obs env'.w = m.obs env.w ∧ o'.lastVal m = some r.value ∧ GoodX m o' ∧ o'.tree = o.tree

theorem coreX_ok (g : Glue) (f : Fun D W E S) (cache : Cache D) (deps : List (XObj D W E S)) (env : Env D W S) {rs deps' env1}
    (h : evalXs g deps env = (.ok rs, deps', env1)) :
    evalX g (.core f cache deps) env =
      ((coreTail g f cache rs env1).1, .core (keep g.coreParamsByValue f (coreTail g f cache rs env1).2.1)
        (keep g.bindFrontCopies cache (coreTail g f cache rs env1).2.2.1) (keep g.coreParamsByValue deps deps'), (coreTail g f cache rs env1).2.2.2) := by
  rw [evalX, h]

mutual
theorem evalX_good (hs : SoundNe D) (g : Glue) (hg : g.Retains) (hv : g.resultByRef = false) (m : XMeaning D W E S O) :
    ∀ (o : XObj D W E S) (env : Env D W S), m.Ok o.tree → GoodX m o → EvalOk g m o env
  | .lazyValue v c, env, _, _ =>
    ⟨_, _, _, by rw [evalX], by simp [XObj.tree, XMeaning.eager], by simp [hv], fun _ => rfl, rfl, rfl, by simp [GoodX], rfl⟩
  | .user l, env, hok, _ => by
    obtain ⟨ch, h1, h2, h3, h4⟩ : ∃ ch, (l.run l.st env.w).1 = .ok (m.now l.toLCode (m.obs env.w), ch) ∧ m.obs (l.run l.st env.w).2.2 = m.obs env.w ∧
        m.last l.toLCode (l.run l.st env.w).2.1 = some (m.now l.toLCode (m.obs env.w)) ∧
        (ch = false → m.last l.toLCode l.st = some (m.now l.toLCode (m.obs env.w))) := by
      rw [XObj.tree] at hok
      cases hok
      rename_i h
      exact h l.st env.w
    rcases hr : l.run l.st env.w with ⟨r, st', w'⟩
    rw [hr] at h1 h2 h3
    simp only at h1 h2 h3
    subst h1
    refine ⟨_, _, _, by rw [evalX, hr], ?_, rfl, fun h => ?_, h2, ?_, by simp [GoodX], by simp [XObj.tree]⟩
    · simp [XObj.tree, XMeaning.eager]
    · exact h4 h
    · exact h3
  | .unwrapped i, env, hok, hgood => by
    obtain ⟨r, o', env', e1, e2, e3, e4, e5, e6, e7, e8⟩ := evalX_good hs g hg hv m i env (by simpa [XObj.tree] using hok) (by simpa [GoodX] using hgood)
    refine ⟨_, _, _, by rw [evalX, e1]; rfl, ?_, ?_, ?_, e5, ?_, ?_, ?_⟩
    · simpa [XObj.tree, LazyRes.through] using e2
    · simp [LazyRes.through, e3, hv]
    · simpa [XObj.lastVal, LazyRes.through] using e4
    · simpa [XObj.lastVal, LazyRes.through, hg.2.2.1] using e6
    · simpa [GoodX, hg.2.2.1] using e7
    · simpa [XObj.tree, hg.2.2.1] using e8
  | .unregularized i, env, hok, hgood => by
    obtain ⟨r, o', env', e1, e2, e3, e4, e5, e6, e7, e8⟩ := evalX_good hs g hg hv m i env (by simpa [XObj.tree] using hok) (by simpa [GoodX] using hgood)
    refine ⟨_, _, _, by rw [evalX, e1]; rfl, ?_, ?_, ?_, e5, ?_, ?_, ?_⟩
    · simpa [XObj.tree, LazyRes.through] using e2
    · simp [LazyRes.through, e3, hv]
    · simpa [XObj.lastVal, LazyRes.through] using e4
    · simpa [XObj.lastVal, LazyRes.through, hg.2.2.2] using e6
    · simpa [GoodX, hg.2.2.2] using e7
    · simpa [XObj.tree, hg.2.2.2] using e8
  | .core (.wrapDep u) cache ds, env, hok, hgood => by
    simp only [GoodX] at hgood
    obtain ⟨hf, v, rfl⟩ := hgood
    have hlf : m.LeafOk u.toFnCode := by
      rw [XObj.tree] at hok; cases hok; assumption
    have hd : evalXs g [XObj.lazyValue v true] env = (.ok [⟨v, true, true⟩], [(XObj.lazyValue v true : XObj D W E S)], env) := by
      simp [evalXs, evalX, Out.map, hv]
    obtain ⟨args, hargs⟩ : ∃ args, readValues [(⟨v, true, true⟩ : LazyRes D)] = some args := ⟨_, rfl⟩
    obtain ⟨h1, h2⟩ := hlf u.st env.w
    have hcall : Fun.call g (.wrapDep u) args env = (.ok (u.ret.regularize (m.leaf u.toFnCode (m.obs env.w))),
        .wrapDep (keep g.wrapParamByValue u (u.invoke .dep [] env).2.1), (u.invoke .dep [] env).2.2) := by
      simp [Fun.call, UFn.invoke, h1]
    have htail := coreTail_run g (.wrapDep u) _ cache [⟨v, true, true⟩] env _ args u.ret _ (by simp [any, anyS]) hargs hcall hf
    refine ⟨_, _, _, (coreX_ok g (.wrapDep u) cache _ env hd).trans (by rw [htail]), ?_, ?_, ?_, ?_, ?_, ?_, ?_⟩
    · simp [XObj.tree, XMeaning.eager]
    · cases cache <;> simp [Glue.coreLive, hv]
    · simp only [Cache.ne_val? hf, XObj.lastVal]
      intro h
      rcases hcv : cache.val? with _ | x
      · rw [hcv] at h; simp at h
      · rw [hcv] at h; simp only at h; rw [Val.ne_sound hs _ _ h]
    · exact h2
    · simp only [hg.1, keep_false, XObj.lastVal]
      exact Cache.assign_val? hf _
    · have hc : ((keep g.wrapParamByValue u (u.invoke .dep [] env).2.1)).ret = u.ret := by cases g.wrapParamByValue <;> rfl
      simp only [hg.1, hg.2.1, keep_false, GoodX]
      refine ⟨?_, v, rfl⟩
      rw [hc]
      exact Cache.assign_fits _ hf
    · simp only [hg.2.1, keep_false, XObj.tree, XTree.function.injEq]
      cases g.wrapParamByValue <;> rfl
  | .core (.regularized u) cache ds, env, hok, hgood => by
    simp only [GoodX] at hgood
    obtain ⟨hf, hcache, hgs⟩ := hgood
    rw [XObj.tree] at hok
    obtain ⟨hfn, hlone, hoks⟩ : m.FnOk u.toFnCode ∧ (∀ t, XObj.trees ds = [t] → ∀ o vs, m.eager o t ≠ .tup vs) ∧ ∀ t ∈ XObj.trees ds, m.Ok t := by
      cases hok
      rename_i h1 h2 h3
      exact ⟨h1, h2, h3⟩
    obtain ⟨rs, ds', env1, he, hval, hlive, hunch, hobs, hlast, hgs', htrees⟩ := evalXs_good hs g hg hv m ds env hoks hgs
    have hrv : readValues rs = some ((XObj.trees ds).map (m.eager (m.obs env.w))) := by
      rw [readValues_live hlive, hval]
      intro r hr
      subst hr
      have hlen : (XObj.trees ds).length = 1 := by
        have := congrArg List.length hval; simpa using this.symm
      obtain ⟨t, ht⟩ := List.length_eq_one_iff.1 hlen
      have := hlone t ht (m.obs env.w)
      rw [ht] at hval
      simp only [List.map_cons, List.map_nil, List.cons.injEq, and_true] at hval
      rw [← hval] at this
      cases hx : r.value with
      | tup vs => exact absurd hx (this vs)
      | _ => rfl
    have hclive : g.coreLive cache = true := by cases cache <;> simp [Glue.coreLive, hv]
    by_cases hch : (!cache.engaged || any LazyRes.isChanged rs) = true
    · obtain ⟨h1, h2⟩ := hfn u.st ((XObj.trees ds).map (m.eager (m.obs env.w))) env1.w
      have hcall : Fun.call g (.regularized u) ((XObj.trees ds).map (m.eager (m.obs env.w))) env1 =
          (.ok (u.ret.regularize (m.fn u.toFnCode ((XObj.trees ds).map (m.eager (m.obs env.w))))),
          .regularized (keep g.regParamByValue u (u.invoke .fn ((XObj.trees ds).map (m.eager (m.obs env.w))) env1).2.1),
          (u.invoke .fn ((XObj.trees ds).map (m.eager (m.obs env.w))) env1).2.2) := by
        simp [Fun.call, UFn.invoke, h1]
      have htail := coreTail_run g (.regularized u) _ cache rs env1 _ _ u.ret _ hch hrv hcall hf
      refine ⟨_, _, _, (coreX_ok g (.regularized u) cache _ env he).trans (by rw [htail]), ?_, hclive, ?_, ?_, ?_, ?_, ?_⟩
      · simp [XObj.tree, XMeaning.eager]
      · simp only [Cache.ne_val? hf, XObj.lastVal]
        intro h
        rcases hcv : cache.val? with _ | x
        · rw [hcv] at h; simp at h
        · rw [hcv] at h; simp only at h; rw [Val.ne_sound hs _ _ h]
      · exact h2.trans hobs
      · simp only [hg.1, keep_false, XObj.lastVal]
        exact Cache.assign_val? hf _
      · have hc : (keep g.regParamByValue u (u.invoke .fn ((XObj.trees ds).map (m.eager (m.obs env.w))) env1).2.1).toFnCode = u.toFnCode := by
          cases g.regParamByValue <;> rfl
        simp only [hg.1, hg.2.1, keep_false, GoodX]
        rw [hc]
        refine ⟨Cache.assign_fits _ hf, ?_, hgs'⟩
        intro v hv'
        rw [Cache.assign_val? hf] at hv'
        simp only [Option.some.injEq] at hv'
        exact ⟨_, by rw [hlast, hval], hv'.symm⟩
      · simp only [hg.2.1, keep_false, XObj.tree, XTree.lazy.injEq]
        exact ⟨by cases g.regParamByValue <;> rfl, htrees⟩
    · simp only [Bool.not_eq_true] at hch
      simp only [Bool.or_eq_false_iff, Bool.not_eq_false'] at hch
      obtain ⟨heng, hany⟩ := hch
      rw [Cache.engaged_val?] at heng
      obtain ⟨v, hv'⟩ := Option.isSome_iff_exists.1 heng
      obtain ⟨vs, hvs1, hvs2⟩ := hcache v hv'
      have hun := hunch (by rw [← any_eq]; exact hany)
      rw [hval] at hun
      have hvseq : vs = (XObj.trees ds).map (m.eager (m.obs env.w)) :=
        (List.map_inj_right (fun _ _ h => Option.some.inj h)).1 (hvs1.symm.trans hun)
      have hve : v = m.eager (m.obs env.w) (XObj.core (.regularized u) cache ds).tree := by
        rw [hvs2, hvseq, XObj.tree, XMeaning.eager]
      have htail := coreTail_skip g (.regularized u) cache rs env1 v hany hv'
      refine ⟨_, _, _, (coreX_ok g (.regularized u) cache _ env he).trans (by rw [htail]), hve, hclive, ?_, hobs, ?_, ?_, ?_⟩
      · intro _; exact hv'
      · simp only [keep_self, XObj.lastVal]; exact hv'
      · simp only [keep_self, hg.2.1, keep_false, GoodX]
        refine ⟨hf, ?_, hgs'⟩
        intro v' hv''
        rw [hv'] at hv''
        simp only [Option.some.injEq] at hv''
        exact ⟨vs, by rw [hlast, hval, hvseq], by rw [← hv'', hvs2]⟩
      · simp only [keep_self, hg.2.1, keep_false, XObj.tree, htrees]
theorem evalXs_good (hs : SoundNe D) (g : Glue) (hg : g.Retains) (hv : g.resultByRef = false) (m : XMeaning D W E S O) :
    ∀ (ds : List (XObj D W E S)) (env : Env D W S), (∀ t ∈ XObj.trees ds, m.Ok t) → GoodXs m ds →
      ∃ rs ds' env', evalXs g ds env = (.ok rs, ds', env') ∧ rs.map LazyRes.value = (XObj.trees ds).map (m.eager (m.obs env.w)) ∧
        rs.all (·.live) = true ∧ (rs.any (·.isChanged) = false → ds.map (XObj.lastVal m) = (rs.map LazyRes.value).map some) ∧
        m.obs env'.w = m.obs env.w ∧ ds'.map (XObj.lastVal m) = (rs.map LazyRes.value).map some ∧ GoodXs m ds' ∧ XObj.trees ds' = XObj.trees ds
  | [], env, _, _ => ⟨[], [], env, by simp [evalXs], by simp [XObj.trees, GoodXs]⟩
  | d :: ds, env, hok, hgood => by
    simp only [GoodXs] at hgood
    simp only [XObj.trees, List.mem_cons, forall_eq_or_imp] at hok
    obtain ⟨r, d', env1, e1, e2, e3, e4, e5, e6, e7, e8⟩ := evalX_good hs g hg hv m d env hok.1 hgood.1
    obtain ⟨rs, ds', env2, q1, q2, q3, q4, q5, q6, q7, q8⟩ := evalXs_good hs g hg hv m ds env1 hok.2 hgood.2
    rw [e5] at q2 q5
    refine ⟨r :: rs, d' :: ds', env2, by simp [evalXs, e1, q1, Out.map], by simp [XObj.trees, e2, q2], by simp [e3, q3], ?_, q5, by simp [e6, q6],
      by simp [GoodXs, e7, q7], by simp [XObj.trees, e8, q8]⟩
    intro hch
    simp only [List.any_cons, Bool.or_eq_false_iff] at hch
    simp [e4 hch.1, q4 hch.2]
end

/-! ### Freshness over histories -/

omit [CxxData D] in
theorem valueIsRV_good (m : XMeaning D W E S O) : ∀ (o : XObj D W E S) {c us}, GoodX m o → o.tree = .lazy c us → (o.valueIsRV = false ↔ c.ret = .val)
  | .lazyValue v c, _, _, _, h => by simp [XObj.tree] at h
  | .core (.wrapDep u) cache ds, _, _, _, h => by simp [XObj.tree] at h
  | .core (.regularized u) cache ds, c, us, hg, h => by
    simp only [GoodX] at hg
    simp only [XObj.tree, XTree.lazy.injEq] at h
    have hf := hg.1
    rw [← h.1]
    cases cache <;> simp_all [Cache.Fits, XObj.valueIsRV]
  | .unwrapped i, _, _, hg, h => by
    simpa [XObj.valueIsRV] using valueIsRV_good m i (by simpa [GoodX] using hg) (by simpa [XObj.tree] using h)
  | .unregularized i, _, _, hg, h => by
    simpa [XObj.valueIsRV] using valueIsRV_good m i (by simpa [GoodX] using hg) (by simpa [XObj.tree] using h)
  | .user l, _, _, _, h => by simp [XObj.tree] at h

omit [CxxData D] in
/-- The objects `pigro::lazy` returns. -/
def XObj.Facade (o : XObj D W E S) : Prop := (∃ i, o = .unregularized (.unwrapped i)) ∧ ∃ c us, o.tree = .lazy c us

theorem evalX_facade (g : Glue) (i : XObj D W E S) (env : Env D W S) : ∃ i', (evalX g (.unregularized (.unwrapped i)) env).2.1 = .unregularized (.unwrapped i') := by
  simp only [evalX]
  rcases evalX g i env with ⟨r, i', env'⟩
  cases g.facadeParamByValue
  · exact ⟨_, rfl⟩
  · exact ⟨_, rfl⟩

theorem callX_good (hs : SoundNe D) (g : Glue) (hg : g.Retains) (hv : g.resultByRef = false) (m : XMeaning D W E S O) (o : XObj D W E S) (env : Env D W S)
    (hf : o.Facade) (hok : m.Ok o.tree) (hgood : GoodX m o) :
    ∃ o' env', callX g o env = (.ok (m.result (m.obs env.w) o.tree), o', env') ∧ m.obs env'.w = m.obs env.w ∧ GoodX m o' ∧ o'.tree = o.tree ∧ o'.Facade := by
  obtain ⟨⟨i, rfl⟩, c, us, ht⟩ := hf
  have hgi : GoodX m (.unwrapped i) := by simpa [GoodX] using hgood
  have hti : (XObj.unwrapped i).tree = .lazy c us := by simpa [XObj.tree] using ht
  obtain ⟨r, o', env', e1, e2, e3, e4, e5, e6, e7, e8⟩ := evalX_good hs g hg hv m (.unwrapped i) env (by rw [hti]; rw [ht] at hok; exact hok) hgi
  obtain ⟨i', hi'⟩ : ∃ i', o' = .unwrapped i' := by
    have := congrArg (·.2.1) e1
    simp only [evalX] at this
    exact ⟨_, this.symm⟩
  subst hi'
  refine ⟨.unregularized (.unwrapped i'), env', ?_, e5, by simpa [GoodX] using e7, ?_, ⟨i', rfl⟩, c, us, ?_⟩
  · simp only [callX, e1, e3, if_true, hg.2.2.2, keep_false, Out.map]
    have hrv := valueIsRV_good m _ hgi hti
    rw [ht, XMeaning.result, ← hti, ← e2]
    cases h : (XObj.unwrapped i).valueIsRV
    · simp [hrv.1 h]
    · rw [h] at hrv; simp at hrv; simp [hrv]
  · rw [ht]; simpa [XObj.tree] using e8.trans hti
  · simpa [XObj.tree] using e8.trans hti

/-- All variables are good. -/
structure XInv (m : XMeaning D W E S O) (ts : List (XTree D W E S)) (s : XState D W E S) : Prop where
  trees : s.vars.map XObj.tree = ts
  good : ∀ o ∈ s.vars, GoodX m o
  facade : ∀ o ∈ s.vars, o.Facade

theorem ensure_good (m : XMeaning D W E S O) {vars : List (XObj D W E S)} (hv : ∀ o ∈ vars, GoodX m o) (a : XArg D W E S) :
    (∀ o, a.ensure vars = some o → GoodX m o) ∧ (a.ensure vars).map XObj.tree = a.tree (vars.map XObj.tree) := by
  cases a with
  | value v => simp [XArg.ensure, GoodX, XArg.tree, XObj.tree]
  | function u =>
    simp only [XArg.ensure, XArg.tree]
    split
    · simp
    · simp [GoodX, XObj.tree, Cache.empty_fits]
  | var i =>
    simp only [XArg.ensure, XArg.tree, List.getElem?_map, and_true]
    intro o ho
    exact hv o (List.mem_of_getElem? ho)
  | user l => simp [XArg.ensure, GoodX, XArg.tree, XObj.tree]

theorem ensureX_good (m : XMeaning D W E S O) {vars : List (XObj D W E S)} (hv : ∀ o ∈ vars, GoodX m o) (as : List (XArg D W E S)) :
    (∀ ds, ensureX vars as = some ds → GoodXs m ds) ∧ (ensureX vars as).map XObj.trees = xargTrees (vars.map XObj.tree) as := by
  induction as with
  | nil => simp [ensureX, GoodXs, xargTrees, XObj.trees]
  | cons a as ih =>
    obtain ⟨h1, h2⟩ := ensure_good m hv a
    obtain ⟨i1, i2⟩ := ih
    simp only [ensureX, xargTrees, ← h2, ← i2]
    rcases ha : a.ensure vars with _ | o
    · simp
    · rcases has : ensureX vars as with _ | os
      · simp
      · simp only [Option.some.injEq, Option.map_some, XObj.trees, and_true]
        rintro _ rfl
        exact ⟨h1 o ha, i1 os has⟩

theorem xstep_inv (hs : SoundNe D) (g : Glue) (hg : g.Retains) (hv : g.resultByRef = false) (m : XMeaning D W E S O) {ts : List (XTree D W E S)}
    {s : XState D W E S} (h : XInv m ts s) (hok : ∀ t ∈ ts, m.Ok t) (op : XOp D W E S) : XInv m (xstepTrees ts op) (xstep g s op).2 := by
  have hokv : ∀ o ∈ s.vars, m.Ok o.tree := fun o ho => hok _ (h.trees ▸ List.mem_map_of_mem ho)
  have hset : ∀ (i : Nat) (o o' : XObj D W E S) (env : Env D W S), s.vars[i]? = some o → GoodX m o' → o'.tree = o.tree → o'.Facade →
      XInv m ts ⟨s.vars.set i o', env⟩ := by
    intro i o o' env hi h1 h2 h3
    refine ⟨?_, ?_, ?_⟩
    · rw [List.map_set, h2]
      obtain ⟨hlt, hi⟩ := List.getElem?_eq_some_iff.1 hi
      rw [← h.trees, ← hi]
      have : (s.vars.map XObj.tree)[i]'(by simpa using hlt) = s.vars[i].tree := by simp
      rw [← this]
      exact List.set_getElem_self _
    · intro x hx
      rcases List.mem_or_eq_of_mem_set hx with hx | rfl
      · exact h.good x hx
      · exact h1
    · intro x hx
      rcases List.mem_or_eq_of_mem_set hx with hx | rfl
      · exact h.facade x hx
      · exact h3
  cases op with
  | mk f deps =>
    obtain ⟨h1, h2⟩ := ensureX_good m h.good deps
    rw [h.trees] at h2
    simp only [xstep, xstepTrees, ← h2]
    rcases hd : ensureX s.vars deps with _ | ds
    · exact h
    · refine ⟨?_, ?_, ?_⟩
      · simp [h.trees, lazyX, XObj.tree]
      · intro o ho
        simp only [List.mem_append, List.mem_singleton] at ho
        rcases ho with ho | rfl
        · exact h.good o ho
        · simp only [lazyX, GoodX]
          refine ⟨Cache.empty_fits f.ret, ?_, h1 ds hd⟩
          intro v hv
          rw [Cache.empty_val?] at hv
          cases hv
      · intro o ho
        simp only [List.mem_append, List.mem_singleton] at ho
        rcases ho with ho | rfl
        · exact h.facade o ho
        · exact ⟨⟨_, rfl⟩, _, _, by simp only [lazyX, XObj.tree]; rfl⟩
  | copy i =>
    simp only [xstep, xstepTrees, ← h.trees, List.getElem?_map]
    rcases hi : s.vars[i]? with _ | o
    · simpa [h.trees] using h
    · have hm := List.mem_of_getElem? hi
      refine ⟨by simp, ?_, ?_⟩
      · intro x hx
        simp only [List.mem_append, List.mem_singleton] at hx
        rcases hx with hx | rfl
        · exact h.good x hx
        · exact h.good x hm
      · intro x hx
        simp only [List.mem_append, List.mem_singleton] at hx
        rcases hx with hx | rfl
        · exact h.facade x hx
        · exact h.facade x hm
  | call i =>
    simp only [xstep, xstepTrees]
    rcases hi : s.vars[i]? with _ | o
    · exact h
    · have hm := List.mem_of_getElem? hi
      obtain ⟨o', env', e1, -, e3, e4, e5⟩ := callX_good hs g hg hv m o s.env (h.facade o hm) (hokv o hm) (h.good o hm)
      simp only [e1]
      exact hset i o o' env' hi e3 e4 e5
  | poll i =>
    simp only [xstep, xstepTrees]
    rcases hi : s.vars[i]? with _ | o
    · exact h
    · have hm := List.mem_of_getElem? hi
      obtain ⟨r, o', env', e1, -, -, -, -, -, e7, e8⟩ := evalX_good hs g hg hv m o s.env (hokv o hm) (h.good o hm)
      simp only [e1]
      refine hset i o o' env' hi e7 e8 ?_
      obtain ⟨⟨j, rfl⟩, c, us, ht⟩ := h.facade o hm
      obtain ⟨j', hj⟩ := evalX_facade g j s.env
      rw [e1] at hj
      simp only at hj
      exact ⟨⟨j', hj⟩, c, us, e8.trans ht⟩
  | poke f => exact ⟨h.trees, h.good, h.facade⟩

omit [CxxData D] in
theorem xstepTrees_prefix (ts : List (XTree D W E S)) (op : XOp D W E S) : ts <+: xstepTrees ts op := by
  cases op with
  | mk f deps => simp only [xstepTrees]; split <;> simp
  | copy i => simp only [xstepTrees]; split <;> simp
  | _ => simp [xstepTrees]

omit [CxxData D] in
theorem xrunTrees_prefix (ops : List (XOp D W E S)) : ∀ ts : List (XTree D W E S), ts <+: xrunTrees ts ops := by
  induction ops with
  | nil => intro ts; exact List.prefix_rfl
  | cons op ops ih => intro ts; exact (xstepTrees_prefix ts op).trans (ih _)

theorem xrun_inv (hs : SoundNe D) (g : Glue) (hg : g.Retains) (hv : g.resultByRef = false) (m : XMeaning D W E S O) (ops : List (XOp D W E S)) :
    ∀ {ts : List (XTree D W E S)} {s : XState D W E S}, XInv m ts s → (∀ t ∈ xrunTrees ts ops, m.Ok t) → XInv m (xrunTrees ts ops) (xrun g s ops).2 := by
  induction ops with
  | nil => intro ts s h _; exact h
  | cons op ops ih =>
    intro ts s h hok
    have hok' : ∀ t ∈ ts, m.Ok t := fun t ht => hok t ((xrunTrees_prefix (op :: ops) ts).subset ht)
    exact ih (xstep_inv hs g hg hv m h hok' op) hok

/-! ### The flags decide -/

omit [CxxData D] in
/-- The object for a `Watch`. -/
def Watch.Rel (x : Watch D W E S) (o : XObj D W E S) : Prop :=
  ∃ cache, o = .unregularized (.unwrapped (.core (.regularized x.f) cache (x.ls.map .user))) ∧ cache.Fits x.f.ret ∧
    cache.val? = x.last.map x.f.ret.regularize

theorem evalXs_users (g : Glue) (ls : List (LFn D W E S)) : ∀ env : Env D W S,
    (∀ rs ls' w', pollUsers ls env.w = (.ok rs, ls', w') → ∃ env', evalXs g (ls.map .user) env =
        (.ok (rs.map fun r => ⟨r.1, r.2, true⟩), ls'.map .user, env') ∧ env'.w = w') ∧
    (∀ e ls' w', pollUsers ls env.w = (.error e, ls', w') → ∃ env', evalXs g (ls.map .user) env = (.thrown e, ls'.map .user, env') ∧ env'.w = w') := by
  induction ls with
  | nil =>
    intro env
    refine ⟨?_, ?_⟩
    · intro rs ls' w' h
      simp only [pollUsers, Prod.mk.injEq, Except.ok.injEq] at h
      obtain ⟨rfl, rfl, rfl⟩ := h
      exact ⟨env, by simp [evalXs], rfl⟩
    · intro e ls' w' h
      simp [pollUsers] at h
  | cons l ls ih =>
    intro env
    simp only [pollUsers]
    rcases hr : l.run l.st env.w with ⟨_ | ⟨v, c⟩, st, w1⟩
    · rename_i e
      refine ⟨?_, ?_⟩
      · intro rs ls' w' h; simp at h
      · intro e' ls' w' h
        simp only [Prod.mk.injEq, Except.error.injEq] at h
        obtain ⟨rfl, rfl, rfl⟩ := h
        exact ⟨⟨w1, env.log ++ [.call .dep l.id [] l.st st]⟩, by simp only [List.map_cons, evalXs, evalX, hr, Out.map], rfl⟩
    · obtain ⟨h1, h2⟩ := ih ⟨w1, env.log ++ [.call .dep l.id [] l.st st]⟩
      simp only at h1 h2
      rcases hp : pollUsers ls w1 with ⟨_ | rs, ls', w2⟩
      · rename_i e
        rw [hp] at h2
        simp only [hp]
        refine ⟨?_, ?_⟩
        · intro rs ls' w' h; simp at h
        · intro e' ls'' w' h
          simp only [Prod.mk.injEq, Except.error.injEq] at h
          obtain ⟨rfl, rfl, rfl⟩ := h
          obtain ⟨env', q1, q2⟩ := h2 _ _ _ rfl
          exact ⟨env', by simp only [List.map_cons, evalXs, evalX, hr, q1, Out.map], q2⟩
      · rw [hp] at h1
        simp only [hp]
        refine ⟨?_, ?_⟩
        · intro rs' ls'' w' h
          simp only [Prod.mk.injEq, Except.ok.injEq] at h
          obtain ⟨rfl, rfl, rfl⟩ := h
          obtain ⟨env', q1, q2⟩ := h1 _ _ _ rfl
          exact ⟨env', by simp only [List.map_cons, evalXs, evalX, hr, q1, Out.map], q2⟩
        · intro e ls' w' h; simp at h

omit [CxxData D] in
theorem pollUsers_length (ls : List (LFn D W E S)) : ∀ w {rs ls' w'}, pollUsers ls w = (.ok rs, ls', w') → rs.length = ls.length := by
  induction ls with
  | nil => intro w rs ls' w' h; simp [pollUsers] at h; simp [h.1]
  | cons l ls ih =>
    intro w rs ls' w' h
    simp only [pollUsers] at h
    rcases hr : l.run l.st w with ⟨_ | r, st, w1⟩
    · rw [hr] at h; simp at h
    · rw [hr] at h
      simp only at h
      rcases hp : pollUsers ls w1 with ⟨_ | rs', ls'', w2⟩
      · rw [hp] at h; simp at h
      · rw [hp] at h
        simp only [Prod.mk.injEq, Except.ok.injEq] at h
        rw [← h.1]
        simp [ih w1 hp]

omit [CxxData D] in
theorem pollUsers_code (ls : List (LFn D W E S)) : ∀ w, (pollUsers ls w).2.1.map LFn.toLCode = ls.map LFn.toLCode := by
  induction ls with
  | nil => intro w; rfl
  | cons l ls ih =>
    intro w
    simp only [pollUsers]
    rcases hr : l.run l.st w with ⟨_ | r, st, w1⟩
    · simp
    · have := ih w1
      rcases hp : pollUsers ls w1 with ⟨_ | rs', ls'', w2⟩ <;> rw [hp] at this <;> simpa [hp] using this

theorem watch_call (g : Glue) (hg : g.Retains) (hv : g.resultByRef = false) (hr : g.regParamByValue = false) (x : Watch D W E S) (o : XObj D W E S)
    (env : Env D W S) (h : x.Rel o) (hlone : NoTupleAlone (x.ls.map LFn.toLCode)) :
    Obs.ret (callX g o env).1 = x.seen (x.call env.w).1 ∧ (x.call env.w).2.1.Rel (callX g o env).2.1 ∧ (callX g o env).2.2.w = (x.call env.w).2.2 ∧
      (x.call env.w).2.1.ls.map LFn.toLCode = x.ls.map LFn.toLCode ∧ (x.call env.w).2.1.f.toFnCode = x.f.toFnCode := by
  obtain ⟨cache, rfl, hf, hlast⟩ := h
  have hrvv : ∀ ds, (XObj.unwrapped (.core (.regularized x.f) cache ds)).valueIsRV = true ↔ x.f.ret ≠ .val := by
    intro ds; cases cache <;> simp_all [Cache.Fits, XObj.valueIsRV]
  have hclive : g.coreLive cache = true := by cases cache <;> simp [Glue.coreLive, hv]
  -- `callX` in terms of the result of the closure
  have hc : ∀ {oc c' env'}, evalX g (.core (.regularized x.f) cache (x.ls.map .user)) env = (oc, c', env') →
      (callX g (.unregularized (.unwrapped (.core (.regularized x.f) cache (x.ls.map .user)))) env).2.1 = .unregularized (.unwrapped c') ∧
      (callX g (.unregularized (.unwrapped (.core (.regularized x.f) cache (x.ls.map .user)))) env).2.2 = env' ∧
      (∀ r, oc = .ok r → r.live = true → (callX g (.unregularized (.unwrapped (.core (.regularized x.f) cache (x.ls.map .user)))) env).1 =
        .ok (if x.f.ret = .val then some r.value else none)) ∧
      (∀ e, oc = .thrown e → (callX g (.unregularized (.unwrapped (.core (.regularized x.f) cache (x.ls.map .user)))) env).1 = .thrown e) := by
    intro oc c' env' h
    have hu : evalX g (.unwrapped (.core (.regularized x.f) cache (x.ls.map .user))) env =
        (oc.map (LazyRes.through (g.resultByRef && g.unwrapParamByValue)), .unwrapped c', env') := by
      rw [evalX, h]; simp [hg.2.2.1, keep_false]
    simp only [callX, hu]
    cases oc with
    | ok r =>
      refine ⟨by simp [hg.2.2.2, keep_false, Out.map], by simp [Out.map], ?_, by simp⟩
      intro r' hr' hl
      simp only [Out.ok.injEq] at hr'
      subst hr'
      simp only [Out.map, LazyRes.through, hl, hv, Bool.false_and, Bool.not_false, Bool.and_self, if_true, Out.ok.injEq]
      by_cases hret : x.f.ret = .val
      · have : (XObj.unwrapped (.core (.regularized x.f) cache (x.ls.map .user))).valueIsRV = false := by
          rw [← Bool.not_eq_true, hrvv]; simp [hret]
        simp [hret, this]
      · simp [hret, (hrvv _).2 hret]
    | thrown e => exact ⟨by simp [hg.2.2.2, keep_false, Out.map], by simp [Out.map], by simp, by simp [Out.map]⟩
    | ub => exact ⟨by simp [hg.2.2.2, keep_false, Out.map], by simp [Out.map], by simp, by simp⟩
    | illFormed => exact ⟨by simp [hg.2.2.2, keep_false, Out.map], by simp [Out.map], by simp, by simp⟩
  obtain ⟨hok, herr⟩ := evalXs_users g x.ls env
  have hcode := pollUsers_code x.ls env.w
  rcases hp : pollUsers x.ls env.w with ⟨_ | rs, ls', w1⟩
  · rename_i e
    rw [hp] at hcode
    obtain ⟨env', q1, q2⟩ := herr _ _ _ hp
    have hev : evalX g (.core (.regularized x.f) cache (x.ls.map .user)) env = (.thrown e, .core (.regularized x.f) cache (ls'.map .user), env') := by
      rw [evalX, q1]; simp [hg.2.1, keep_false, Out.map]
    obtain ⟨c1, c2, -, c4⟩ := hc hev
    simp only [Watch.call, hp]
    exact ⟨by rw [c4 e rfl]; rfl, ⟨cache, c1, hf, hlast⟩, by rw [c2, q2], hcode, trivial⟩
  · rw [hp] at hcode
    obtain ⟨env', q1, q2⟩ := hok _ _ _ hp
    have hrd : readValues (rs.map fun r => (⟨r.1, r.2, true⟩ : LazyRes D)) = some (rs.map (·.1)) := by
      rw [readValues_live (by simp)]
      · simp
      · intro r hr
        -- the lone one is not a tuple
        obtain ⟨⟨v, ch⟩, hrs⟩ : ∃ p, rs = [p] := by
          rcases rs with _ | ⟨p, _ | ⟨q, rs⟩⟩ <;> simp at hr
          exact ⟨p, rfl⟩
        subst hrs
        simp only [List.map_cons, List.map_nil, List.cons.injEq, and_true] at hr
        subst hr
        have hlen := pollUsers_length _ _ hp
        obtain ⟨l, hl⟩ := List.length_eq_one_iff.1 hlen.symm
        rw [hl] at hp
        simp only [pollUsers] at hp
        rcases hrun : l.run l.st env.w with ⟨_ | r, st, w2⟩
        · rw [hrun] at hp; simp at hp
        · rw [hrun] at hp
          simp only [Prod.mk.injEq, Except.ok.injEq, List.cons.injEq, and_true] at hp
          have := hlone l.toLCode (by rw [hl]; rfl) l.st env.w v ch (by rw [hrun, hp.1])
          cases v with
          | tup xs => exact absurd rfl (this xs)
          | _ => rfl
    have hany : any LazyRes.isChanged (rs.map fun r => (⟨r.1, r.2, true⟩ : LazyRes D)) = rs.any (·.2) := by
      rw [any_eq]; simp [List.any_map, Function.comp_def]
    by_cases hch : x.last = none ∨ rs.any (·.2) = true
    · have hcond : (!cache.engaged || any LazyRes.isChanged (rs.map fun r => (⟨r.1, r.2, true⟩ : LazyRes D))) = true := by
        rcases hch with hch | hch
        · rw [Cache.engaged_val?, hlast, hch]; rfl
        · rw [hany, hch, Bool.or_true]
      rcases hrun : x.f.run x.f.st (rs.map (·.1)) w1 with ⟨_ | v, st, w2⟩
      · rename_i e
        have hcall : x.call env.w = (.error e, ⟨{ x.f with st := st }, ls', x.last⟩, w2) := by
          simp only [Watch.call, hp]
          rcases hch with hch | hch
          · simp only [hch, hrun]
          · cases x.last <;> simp only [hch, hrun]
        have hfc : Fun.call g (.regularized x.f) (rs.map (·.1)) env' = (.thrown e, .regularized { x.f with st := st },
            ⟨w2, env'.log ++ [.call .fn x.f.id (rs.map (·.1)) x.f.st st]⟩) := by
          simp [Fun.call, UFn.invoke, q2, hrun, hr, keep_false]
        have htail : coreTail g (.regularized x.f) cache (rs.map fun r => (⟨r.1, r.2, true⟩ : LazyRes D)) env' =
            (.thrown e, .regularized { x.f with st := st }, cache, ⟨w2, env'.log ++ [.call .fn x.f.id (rs.map (·.1)) x.f.st st]⟩) := by
          simp only [coreTail, hcond, if_true, hrd, hfc, Out.map]
        have hev := coreX_ok g (.regularized x.f) cache _ env q1
        rw [htail] at hev
        obtain ⟨c1, c2, -, c4⟩ := hc hev
        rw [hcall]
        refine ⟨by rw [c4 e rfl]; rfl, ⟨cache, ?_, hf, hlast⟩, by rw [c2], hcode, rfl⟩
        rw [c1]; simp [hg.1, hg.2.1, keep_false]
      · have hcall : x.call env.w = (.ok v, ⟨{ x.f with st := st }, ls', some v⟩, w2) := by
          simp only [Watch.call, hp]
          rcases hch with hch | hch
          · simp only [hch, hrun]
          · cases x.last <;> simp only [hch, hrun]
        have hfc : Fun.call g (.regularized x.f) (rs.map (·.1)) env' = (.ok (x.f.ret.regularize v), .regularized { x.f with st := st },
            ⟨w2, env'.log ++ [.call .fn x.f.id (rs.map (·.1)) x.f.st st]⟩) := by
          simp [Fun.call, UFn.invoke, q2, hrun, hr, keep_false]
        have htail := coreTail_run g (.regularized x.f) _ cache _ env' _ _ x.f.ret _ hcond hrd hfc hf
        have hev := coreX_ok g (.regularized x.f) cache _ env q1
        rw [htail] at hev
        obtain ⟨c1, c2, c3, -⟩ := hc hev
        rw [hcall]
        refine ⟨?_, ⟨cache.assign (x.f.ret.regularize v), ?_, Cache.assign_fits _ hf, Cache.assign_val? hf _⟩, by rw [c2], hcode, rfl⟩
        · rw [c3 _ rfl hclive]
          simp only [Watch.seen]
          by_cases hret : x.f.ret = .val <;> simp [hret, RetTy.regularize]
        · rw [c1]; simp [hg.1, hg.2.1, keep_false]
    · rcases hl : x.last with _ | v
      · exact absurd (.inl hl) hch
      · have hrs : rs.any (·.2) = false := by
          rw [← Bool.not_eq_true]; exact fun h => hch (.inr h)
        have hcv : cache.val? = some (x.f.ret.regularize v) := by rw [hlast, hl]; rfl
        have htail := coreTail_skip g (.regularized x.f) cache _ env' _ (hany.trans hrs) hcv
        have hev := coreX_ok g (.regularized x.f) cache _ env q1
        rw [htail] at hev
        obtain ⟨c1, c2, c3, -⟩ := hc hev
        have hcall : x.call env.w = (.ok v, { x with ls := ls' }, w1) := by
          simp only [Watch.call, hp, hl, hrs]
        rw [hcall]
        refine ⟨?_, ⟨cache, ?_, hf, hlast⟩, by rw [c2]; exact q2, hcode, rfl⟩
        · rw [c3 _ rfl hclive]
          simp only [Watch.seen]
          by_cases hret : x.f.ret = .val <;> simp [hret, RetTy.regularize]
        · rw [c1]; simp [hg.2.1, keep_false, keep_self]

theorem watch_run (g : Glue) (hg : g.Retains) (hv : g.resultByRef = false) (hr : g.regParamByValue = false) (l : List (Option (W → W))) :
    ∀ (x : Watch D W E S) (s : XState D W E S), (∃ o, s.vars = [o] ∧ x.Rel o) → NoTupleAlone (x.ls.map LFn.toLCode) →
      (xrun g s (l.map watchOp)).1 = (x.run s.env.w l).1 ∧ (xrun g s (l.map watchOp)).2.env.w = (x.run s.env.w l).2.2 := by
  induction l with
  | nil => intro x s _ _; exact ⟨rfl, rfl⟩
  | cons a l ih =>
    rintro x s ⟨o, hs, ho⟩ hlone
    cases a with
    | some h =>
      have := ih x (xstep g s (.poke h)).2 ⟨o, hs, ho⟩ hlone
      exact ⟨congrArg (Obs.unit :: ·) this.1, this.2⟩
    | none =>
      obtain ⟨h1, h2, h3, h4, h5⟩ := watch_call g hg hv hr x o s.env ho hlone
      have := ih (x.call s.env.w).2.1 (xstep g s (.call 0)).2 ⟨(callX g o s.env).2.1, by simp [xstep, hs], h2⟩ (by rw [h4]; exact hlone)
      have he : (xstep g s (.call 0)).2.env.w = (x.call s.env.w).2.2 := by simpa [xstep, hs] using h3
      have ho : (xstep g s (.call 0)).1 = x.seen (x.call s.env.w).1 := by simpa [xstep, hs] using h1
      rw [he] at this
      simp only [List.map_cons, watchOp, xrun, Watch.run, this, ho, and_self]

/-! ### Dangling results -/

mutual
theorem evalX_wellFormed (g : Glue) : ∀ (o : XObj D W E S) (env : Env D W S), (evalX g o env).1 ≠ .illFormed
  | .lazyValue v c, env => by simp [evalX]
  | .core f cache ds, env => by
    have ih := evalXs_wellFormed g ds env
    rcases h : evalXs g ds env with ⟨o, ds', env1⟩
    rw [h] at ih
    cases o with
    | ok rs => rw [coreX_ok g f cache ds env h]; exact (coreTail_wellFormed g f cache rs env1).1
    | illFormed => exact absurd rfl ih
    | _ => simp [evalX, h, Out.map]
  | .unwrapped i, env => by
    have ih := evalX_wellFormed g i env
    simp only [evalX]
    rcases h : evalX g i env with ⟨o, i', env1⟩
    rw [h] at ih
    cases o <;> simp_all [Out.map]
  | .unregularized i, env => by
    have ih := evalX_wellFormed g i env
    simp only [evalX]
    rcases h : evalX g i env with ⟨o, i', env1⟩
    rw [h] at ih
    cases o <;> simp_all [Out.map]
  | .user l, env => by
    simp only [evalX]
    rcases l.run l.st env.w with ⟨_ | ⟨v, c⟩, st', w'⟩ <;> simp
theorem evalXs_wellFormed (g : Glue) : ∀ (ds : List (XObj D W E S)) (env : Env D W S), (evalXs g ds env).1 ≠ .illFormed
  | [], env => by simp [evalXs]
  | d :: ds, env => by
    have ih := evalX_wellFormed g d env
    simp only [evalXs]
    rcases h : evalX g d env with ⟨o, d', env1⟩
    rw [h] at ih
    cases o with
    | ok r =>
      have ih' := evalXs_wellFormed g ds env1
      rcases h' : evalXs g ds env1 with ⟨o', ds', env2⟩
      rw [h'] at ih'
      cases o' <;> simp_all [Out.map]
    | illFormed => exact absurd rfl ih
    | _ => simp [Out.map]
end

omit [CxxData D] in
/-- The objects `pigro::lazy` returns, in full. -/
def XObj.Made (o : XObj D W E S) : Prop := ∃ f cache ds, o = .unregularized (.unwrapped (.core f cache ds))

theorem evalX_core_made (g : Glue) (f : Fun D W E S) (cache : Cache D) (ds : List (XObj D W E S)) (env : Env D W S) :
    ∃ f' cache' ds', (evalX g (.core f cache ds) env).2.1 = .core f' cache' ds' := by
  rcases h : evalXs g ds env with ⟨o, ds', env1⟩
  cases o with
  | ok rs => rw [coreX_ok g f cache ds env h]; exact ⟨_, _, _, rfl⟩
  | _ => exact ⟨_, _, _, by rw [evalX, h]⟩

theorem evalX_made (g : Glue) {o : XObj D W E S} (h : o.Made) (env : Env D W S) : (evalX g o env).2.1.Made := by
  obtain ⟨f, cache, ds, rfl⟩ := h
  obtain ⟨f', cache', ds', h'⟩ := evalX_core_made g f cache ds env
  simp only [evalX.eq_3, evalX.eq_4]
  rcases he : evalX g (.core f cache ds) env with ⟨o, c', env'⟩
  rw [he] at h'
  simp only at h'
  subst h'
  cases g.facadeParamByValue <;> cases g.unwrapParamByValue <;> exact ⟨_, _, _, rfl⟩

theorem callX_eval (g : Glue) (i : XObj D W E S) (env : Env D W S) : (callX g (.unregularized (.unwrapped i)) env).2.1 = (evalX g (.unregularized (.unwrapped i)) env).2.1 := by
  simp only [callX, evalX]
  rcases evalX g i env with ⟨o, i', env'⟩
  cases o <;> rfl

theorem callX_dangles (g : Glue) (hr : g.resultByRef = true) (hc : g.bindFrontCopies = true ∨ g.unwrapParamByValue = true) {o : XObj D W E S} (h : o.Made)
    (env : Env D W S) : (callX g o env).1 = .ub ∨ ∃ e, (callX g o env).1 = .thrown e := by
  obtain ⟨f, cache, ds, rfl⟩ := h
  have hw := evalX_wellFormed g (.core f cache ds) env
  have hl : ∀ r, (evalX g (.core f cache ds) env).1 = .ok r → r.live = g.coreLive cache := by
    rcases h : evalXs g ds env with ⟨o, ds', env1⟩
    cases o with
    | ok rs => rw [coreX_ok g f cache ds env h]; exact (coreTail_wellFormed g f cache rs env1).2
    | _ => intro r hr; rw [evalX, h] at hr; simp [Out.map] at hr
  simp only [callX, evalX.eq_3]
  rcases he : evalX g (.core f cache ds) env with ⟨o, c', env'⟩
  rw [he] at hw hl
  simp only at hw hl
  cases o with
  | ok r =>
    left
    have h1 := hl r rfl
    have : (r.through (g.resultByRef && g.unwrapParamByValue)).live = false := by
      simp only [LazyRes.through, h1, hr, Bool.true_and]
      rcases hc with hc | hc
      · cases cache <;> simp [Glue.coreLive, hr, hc]
      · simp [hc]
    simp [Out.map, this]
  | thrown e => exact .inr ⟨e, by simp [Out.map]⟩
  | ub => exact .inl (by simp [Out.map])
  | illFormed => exact absurd rfl hw

theorem xstep_made (g : Glue) {s : XState D W E S} (h : ∀ o ∈ s.vars, o.Made) (op : XOp D W E S) : ∀ o ∈ (xstep g s op).2.vars, o.Made := by
  have hset : ∀ (i : Nat) (o' : XObj D W E S), o'.Made → ∀ o ∈ s.vars.set i o', o.Made := by
    intro i o' h1 x hx
    rcases List.mem_or_eq_of_mem_set hx with hx | rfl
    · exact h x hx
    · exact h1
  cases op with
  | mk f deps =>
    simp only [xstep]
    rcases ensureX s.vars deps with _ | ds
    · exact h
    · intro o ho
      simp only [List.mem_append, List.mem_singleton] at ho
      rcases ho with ho | rfl
      · exact h o ho
      · exact ⟨_, _, _, rfl⟩
  | copy i =>
    simp only [xstep]
    rcases hi : s.vars[i]? with _ | o
    · exact h
    · intro x hx
      simp only [List.mem_append, List.mem_singleton] at hx
      rcases hx with hx | rfl
      · exact h x hx
      · exact h x (List.mem_of_getElem? hi)
  | call i =>
    simp only [xstep]
    rcases hi : s.vars[i]? with _ | o
    · exact h
    · apply hset
      have hm := h o (List.mem_of_getElem? hi)
      have := evalX_made g hm s.env
      obtain ⟨f, cache, ds, rfl⟩ := hm
      rw [callX_eval]; exact this
  | poll i =>
    simp only [xstep]
    rcases hi : s.vars[i]? with _ | o
    · exact h
    · exact hset _ _ (evalX_made g (h o (List.mem_of_getElem? hi)) s.env)
  | poke f => exact h

theorem xrun_made (g : Glue) (ops : List (XOp D W E S)) : ∀ {s : XState D W E S}, (∀ o ∈ s.vars, o.Made) → ∀ o ∈ (xrun g s ops).2.vars, o.Made := by
  induction ops with
  | nil => intro s h; exact h
  | cons op ops ih => intro s h; exact ih (xstep_made g h op)

end Pigro
