import Verif.Proofs.LazyMore
/-!
# History-level lemmas for the lazy properties
-/
namespace Pigro
variable {D W E S O : Type} [CxxData D]

/-! ### Nodes over constant dependencies (C02, C03) -/

/-- The object made by `pigro::lazy(f, v...)`. -/
def constNode (f : UFn D W E S) (cache : Cache D) (vs : List (Val D)) : Obj D W E S :=
  .unregularized (.unwrapped (.core (.regularized f) cache (vs.map (fun v => .lazyValue v false))))

theorem evalDeps_const (g : Glue) (vs : List (Val D)) (env : Env D W S) :
    evalDeps g (vs.map (fun v => (Obj.lazyValue v false : Obj D W E S))) env =
      (.ok (vs.map fun v => ⟨v, false, !(g.resultByRef && g.valueParamByValue)⟩),
        vs.map (fun v => .lazyValue v false), env) := by
  induction vs with
  | nil => simp [evalDeps]
  | cons v vs ih => simp [evalDeps, evalN, ih, Out.map]

omit [CxxData D] in
theorem resolveAll_values (vars : List (Obj D W E S)) (vs : List (Val D)) :
    resolveAll vars (vs.map .value) = some (vs.map .value) := by
  induction vs with
  | nil => rfl
  | cons v vs ih => simp [resolveAll, ArgRef.resolve, ih]

theorem ensureAll_values (vs : List (Val D)) :
    ensureAll (vs.map .value : List (DepArg D W E S)) =
      some (vs.map (fun v => .lazyValue v false)) := by
  induction vs with
  | nil => rfl
  | cons v vs ih => simp [ensureAll, ensureLazy_value, ih]

theorem mk_const (g : Glue) (s : State D W E S) (f : UFn D W E S) (vs : List (Val D)) :
    step g s (.mk f (vs.map .value)) =
      (.unit, { s with vars := s.vars ++ [constNode f (Cache.empty f.ret) vs] }) := by
  simp [step, resolveAll_values, pigroLazy, ensureAll_values, constNode, detailLazy, Fun.ret]

theorem run_pokes (g : Glue) (hs : List (W → W)) : ∀ s : State D W E S,
    run g s (hs.map .poke) = (hs.map (fun _ => .unit),
      { s with env := { s.env with w := hs.foldl (fun w h => h w) s.env.w } }) := by
  induction hs with
  | nil => intro s; rfl
  | cons h hs ih => intro s; simp [run, step, ih]

theorem shape_const (f : UFn D W E S) (cache : Cache D) (vs : List (Val D))
    (hf : cache.Fits f.ret) :
    Shape (.lazy f.toFnCode (vs.map .value)) (constNode f cache vs) := by
  simp only [Shape, constNode]
  refine ⟨f, cache, _, rfl, hf, ?_, rfl⟩
  induction vs with
  | nil => simp [ShapeL]
  | cons v vs ih => simp only [List.map_cons, ShapeL, Shape]; exact ⟨_, _, rfl, ih, rfl⟩

theorem call0_const_cached (g : Glue) (f : UFn D W E S) (cache : Cache D) (vs : List (Val D))
    (env : Env D W S) (x : Val D) (hf : cache.Fits f.ret) (hx : cache.val? = some x)
    (hsafe : g.SafeFor (.lazy f.toFnCode (vs.map .value))) :
    call0 g (constNode f cache vs) env =
      (.ok (if f.ret = .val then some x else none), constNode f cache vs, env) := by
  have hany : any LazyRes.isChanged (vs.map fun v => (⟨v, false, !(g.resultByRef &&
      g.valueParamByValue)⟩ : LazyRes D)) = false := by
    rw [any_eq]; simp
  have he : evalN g (constNode f cache vs) env =
      (.ok (LazyRes.through (g.resultByRef && (g.facadeParamByValue || g.unwrapParamByValue))
        ⟨x, false, g.coreLive cache⟩), constNode f cache vs, env) := by
    rw [constNode, evalN_facade, evalN_core_ok g _ _ _ _ (evalDeps_const g vs env),
      coreTail_skip g _ cache _ env x hany hx]
    simp [Out.map]
  have hsh := shape_const f cache vs hf
  have h1 := call0_obj g _ _ _ env hsh
  have h2 := (call0_result g _ _ _ env hsh).2.2.1
  have hl := (evalN_defined g _ _ env hsh hsafe).2 _ (by rw [he])
  have h3 := h2 _ (by rw [he]) hl
  rw [he] at h1
  exact Prod.ext h3 h1

theorem call0_const_first (g : Glue) (hg : g.keepsCache) (f : UFn D W E S) (cache : Cache D)
    (vs : List (Val D)) (env : Env D W S) (x : Val D) (hf : cache.Fits f.ret)
    (hc : cache.val? = none) (hrun : (f.run f.st vs env.w).1 = .ok x)
    (hlone : ∀ v, vs = [v] → ∀ xs, v ≠ .tup xs)
    (hsafe : g.SafeFor (.lazy f.toFnCode (vs.map .value))) :
    ∃ f' cache' env', call0 g (constNode f cache vs) env =
        (.ok (if f.ret = .val then some x else none), constNode f' cache' vs, env') ∧
      f'.toFnCode = f.toFnCode ∧ cache'.Fits f.ret ∧ cache'.val? = some (f.ret.regularize x) ∧
      fnCalls env'.log = fnCalls env.log ++ [(f.id, vs)] := by
  have hlive : (!(g.resultByRef && g.valueParamByValue)) = true := by
    rcases hsafe with h | ⟨_, _, _, h, _⟩ <;> simp [h]
  have hdeps := evalDeps_const (E := E) (S := S) g vs env
  rw [hlive] at hdeps
  have hrv : readValues (vs.map fun v => (⟨v, false, true⟩ : LazyRes D)) = some vs := by
    rw [readValues_live (by simp)]
    · simp [Function.comp_def]
    · intro r hr
      match vs, hr with
      | [v], hr =>
        simp only [List.map_cons, List.map_nil, List.cons.injEq, and_true] at hr
        subst hr
        have := hlone v rfl
        cases hv : v with
        | tup xs => exact absurd hv (this xs)
        | _ => rfl
  have heng : cache.engaged = false := by rw [Cache.engaged_val?, hc]; rfl
  have hcall : Fun.call g (.regularized f) vs env =
      (.ok (f.ret.regularize x), .regularized (keep g.regParamByValue f (f.invoke .fn vs env).2.1),
        (f.invoke .fn vs env).2.2) := by
    simp [Fun.call, UFn.invoke, hrun]
  have htail := coreTail_run g (.regularized f) _ cache _ env _ vs f.ret x
    (by simp [heng]) hrv hcall hf
  obtain ⟨ha, hcc, hd⟩ := hg
  have hcode : (keep g.coreParamsByValue f (keep g.regParamByValue f (f.invoke .fn vs env).2.1)).toFnCode
      = f.toFnCode := by
    cases g.coreParamsByValue <;> cases g.regParamByValue <;> rfl
  have he : evalN g (constNode f cache vs) env =
      (.ok ⟨f.ret.regularize x, cache.ne (f.ret.regularize x), g.coreLive cache⟩,
        constNode (keep g.coreParamsByValue f (keep g.regParamByValue f (f.invoke .fn vs env).2.1))
          (cache.assign (f.ret.regularize x)) vs,
        { (f.invoke .fn vs env).2.2 with
          log := (f.invoke .fn vs env).2.2.log ++ cmpEvents cache (f.ret.regularize x) }) := by
    rw [constNode, evalN_facade, evalN_core_ok g _ _ _ _ hdeps, htail]
    simp only [ha, hcc, hd, keep_false, Bool.or_self, Bool.and_false, Out.map, LazyRes.through,
      keep_self, Bool.not_false, Bool.and_true, constNode]
    cases g.coreParamsByValue <;> rfl
  have hsh := shape_const f cache vs hf
  have h1 := call0_obj g _ _ _ env hsh
  have h2 := (call0_result g _ _ _ env hsh).2.2.1
  have hl := (evalN_defined g _ _ env hsh hsafe).2 _ (by rw [he])
  have h3 := h2 _ (by rw [he]) hl
  rw [he] at h1
  refine ⟨_, _, _, Prod.ext (h3.trans ?_) h1, hcode, Cache.assign_fits _ hf,
    Cache.assign_val? hf x, ?_⟩
  · by_cases hr : f.ret = .val <;> simp [hr, RetTy.regularize]
  · simp [UFn.invoke, fnCalls, (cmpEvents_simple (S := S) cache _).2.2.1]

/-- Once a value is cached, calls of a node over constants change nothing. -/
theorem run_const_cached (g : Glue) (f : UFn D W E S) (cache : Cache D) (vs : List (Val D))
    (x : Val D) (hf : cache.Fits f.ret) (hx : cache.val? = some x)
    (hsafe : g.SafeFor (.lazy f.toFnCode (vs.map .value)))
    (rest : List (Op D W E S)) : ∀ s : State D W E S, s.vars = [constNode f cache vs] →
    (∀ op ∈ rest, op = .call 0 ∨ ∃ h, op = .poke h) →
    (run g s rest).1 = rest.map (constOut (.ret (.ok (if f.ret = .val then some x else none)))) ∧ (run g s rest).2.env.log = s.env.log := by
  induction rest with
  | nil => intro s _ _; exact ⟨rfl, rfl⟩
  | cons op rest ih =>
    intro s hs hr
    rcases hr op (by simp) with rfl | ⟨h, rfl⟩
    · have hstep : step g s (.call 0) =
          (.ret (.ok (if f.ret = .val then some x else none)), s) := by
        rw [step_call g s 0 (constNode f cache vs) (by rw [hs]; rfl),
          call0_const_cached g f cache vs s.env x hf hx hsafe]
        rcases s with ⟨vars, env⟩
        simp only at hs
        subst hs
        rfl
      have := ih s hs (fun op hop => hr op (by simp [hop]))
      simp only [run, hstep, List.map_cons]
      exact ⟨by rw [this.1]; rfl, this.2⟩
    · have := ih (step g s (.poke h)).2 hs (fun op hop => hr op (by simp [hop]))
      simp only [run, List.map_cons]
      exact ⟨by rw [this.1]; rfl, by rw [this.2]; rfl⟩

/-! ### Dropped state: the function runs again at every call (C02) -/

theorem call0_nodeps_pristine (g : Glue) (hg : g.Drops) (f : UFn D W E S) (cache : Cache D)
    (env : Env D W S) (hf : cache.Fits f.ret) (hc : cache.val? = none) :
    ∃ f' cache', (call0 g (constNode f cache []) env).2.1 = constNode f' cache' [] ∧
      f'.toFnCode = f.toFnCode ∧ cache'.Fits f.ret ∧ cache'.val? = none ∧
      fnCalls (call0 g (constNode f cache []) env).2.2.log = fnCalls env.log ++ [(f.id, [])] := by
  have hsh := shape_const f cache [] hf
  rw [call0_obj g _ _ _ env hsh]
  have hp : Obj.Pristine (.core (.regularized f) cache [] : Obj D W E S) := by
    simp [Obj.Pristine, Obj.PristineL, hc]
  have hp' := facade_pristine g hg _ env hp
  have hsh' := evalN_shape g _ _ env hsh
  have hdeps : evalDeps g ([] : List (Obj D W E S)) env = (.ok [], [], env) := by simp [evalDeps]
  have hex := (coreTail_exact g f cache [] env hf (by simp)).1
  simp only [hc] at hex
  simp only [constNode, List.map_nil] at hsh' ⊢
  rw [evalN_facade] at hsh' ⊢
  rw [evalN_core_ok g _ _ _ _ hdeps] at hsh' hp' ⊢
  simp only [Shape] at hsh'
  obtain ⟨u, cache', ds, hu, hf', hds, heq⟩ := hsh'
  simp only [Obj.unregularized.injEq, Obj.unwrapped.injEq] at heq
  rw [heq] at hp' ⊢
  simp only [ShapeL] at hds
  subst hds
  simp only [Obj.Pristine] at hp'
  exact ⟨u, cache', rfl, hu, hf', hp'.1, by simpa [tupleCTAD] using hex⟩

theorem run_nodeps_dropped (g : Glue) (hg : g.Drops) (rest : List (Op D W E S)) :
    ∀ (f : UFn D W E S) (cache : Cache D) (s : State D W E S),
    cache.Fits f.ret → cache.val? = none → s.vars = [constNode f cache []] →
    (∀ op ∈ rest, op = .call 0 ∨ ∃ h, op = .poke h) →
    fnCalls (run g s rest).2.env.log =
      fnCalls s.env.log ++ List.replicate (countCalls 0 rest) (f.id, []) := by
  induction rest with
  | nil => intro f cache s _ _ _ _; simp [run, countCalls]
  | cons op rest ih =>
    intro f cache s hf hc hs hr
    rcases hr op (by simp) with rfl | ⟨h, rfl⟩
    · obtain ⟨f', cache', h1, h2, h3, h4, h5⟩ := call0_nodeps_pristine g hg f cache s.env hf hc
      have hstep := step_call g s 0 (constNode f cache []) (by rw [hs]; rfl)
      have hid : f'.id = f.id := by rw [h2]
      have hret : f'.ret = f.ret := by rw [h2]
      have := ih f' cache' (step g s (.call 0)).2 (by rw [hret]; exact h3) h4
        (by rw [hstep, hs, h1]; rfl) (fun op hop => hr op (by simp [hop]))
      simp only [run]
      rw [this, hstep]
      simp only
      rw [h5, hid]
      simp [countCalls, Nat.add_comm 1, List.replicate_succ]
    · have := ih f cache (step g s (.poke h)).2 hf hc hs (fun op hop => hr op (by simp [hop]))
      simp only [run]
      rw [this]
      simp [countCalls, step]

/-! ### `track` -/

/-- What the program has seen agrees with the cached values. -/
def Seen (l : List (Option (Val D))) (vars : List (Obj D W E S)) : Prop :=
  l = vars.map Obj.lastVal

theorem seen_step (g : Glue) (hg : g.keepsCache) {ts : List (Tree D W E S)} {s : State D W E S}
    (hi : Inv ts s) {l : List (Option (Val D))} (hl : Seen l s.vars) (op : Op D W E S)
    (hub : (step g s op).1 ≠ .ret .ub) :
    Seen (track l op (step g s op).1) (step g s op).2.vars := by
  have hshape : ∀ (i : Nat) o, s.vars[i]? = some o → ∃ c us, Shape (.lazy c us) o := by
    intro i o ho
    have h2 := (List.getElem?_eq_some_iff.1 ho).1
    have h1 : i < ts.length := by rw [hi.shape.length]; exact h2
    have ht : ts[i]? = some ts[i] := List.getElem?_eq_getElem h1
    obtain ⟨c, us, hcu⟩ := hi.lz ts[i] (List.getElem_mem h1)
    exact ⟨c, us, hcu ▸ hi.shape.get? ht ho⟩
  have hsetSame : ∀ (i : Nat) (o o' : Obj D W E S), s.vars[i]? = some o → o'.lastVal = o.lastVal →
      s.vars.map Obj.lastVal = (s.vars.set i o').map Obj.lastVal := by
    intro i o o' ho heq
    obtain ⟨hlt, rfl⟩ := List.getElem?_eq_some_iff.1 ho
    rw [List.map_set, heq, ← List.map_set, List.set_getElem_self hlt]
  cases op with
  | mk f deps =>
    have key := mk_tree hi.shape hi.lz f deps
    simp only [step]
    rcases ha : argTrees ts deps with _ | us
    · rw [key.2 ha]; simpa [track] using hl
    · obtain ⟨os, hos, _, _⟩ := key.1 us ha
      rw [hos]
      simp only [track, Seen, List.map_append, List.map_cons, List.map_nil, Obj.lastVal,
        Cache.empty_val?]
      rw [hl]
  | copy i =>
    simp only [step]
    rcases ho : s.vars[i]? with _ | o
    · simpa [track] using hl
    · have : l[i]? = some o.lastVal := by rw [hl]; simp [ho]
      simp only [track, this, Seen, List.map_append, List.map_cons, List.map_nil]
      rw [hl]
  | call i =>
    rcases ho : s.vars[i]? with _ | o
    · simpa [step, ho, track] using hl
    · obtain ⟨c, us, hsh⟩ := hshape i o ho
      have hc := evalN_cache g hg c us o s.env hsh
      have hr := call0_result g c us o s.env hsh
      have hobj := call0_obj g c us o s.env hsh
      rw [step_call g s i o ho]
      simp only
      rw [hobj]
      rcases hx : (call0 g o s.env).1 with x | e | _ | _
      · obtain ⟨r, hre, hrv⟩ := hr.1 x hx
        have hlast := (hc.1 r hre).1
        have hval : c.ret ≠ .val → r.value = .rvoid := by
          intro hv
          have hsh' := evalN_shape g _ _ s.env hsh
          simp only [Shape] at hsh'
          obtain ⟨u', cache', ds', hu', hf', _, ho'⟩ := hsh'
          rw [ho'] at hlast
          simp only [Obj.lastVal] at hlast
          cases cache' with
          | opt q => simp only [Cache.Fits] at hf'; exact absurd hf' hv
          | rv q =>
            simp only [Cache.val?] at hlast
            split at hlast
            · exact (Option.some.inj hlast).symm
            · cases hlast
        by_cases hv : c.ret = .val
        · simp only [hv, if_true] at hrv
          subst hrv
          simp only [track, Seen, List.map_set, hlast]
          rw [hl]
        · simp only [hv, if_false] at hrv
          subst hrv
          simp only [track, Seen, List.map_set, hlast, hval hv]
          rw [hl]
      · simp only [track, Seen]
        rw [hl]
        exact hsetSame i o _ ho (hc.2 (by rw [(hr.2.1 e).1 hx]; rfl))
      · exact absurd (by rw [step_call g s i o ho, hx]) hub
      · simp only [track, Seen]
        rw [hl]
        refine hsetSame i o _ ho (hc.2 ?_)
        rcases hr.2.2.2 with h | h
        · exact absurd hx h
        · rw [h]; rfl
  | poll i =>
    rcases ho : s.vars[i]? with _ | o
    · simpa [step, ho, track] using hl
    · obtain ⟨c, us, hsh⟩ := hshape i o ho
      have hc := evalN_cache g hg c us o s.env hsh
      rw [step_poll g s i o ho]
      simp only
      rcases hx : (evalN g o s.env).1 with r | e | _ | _
      · simp only [track, Seen, List.map_set, (hc.1 r hx).1]
        rw [hl]
      all_goals
        simp only [track, Seen]
        rw [hl]
        exact hsetSame i o _ ho (hc.2 (by rw [hx]; rfl))
  | poke h => simpa [step, track] using hl

theorem trackAll_seen (g : Glue) (hg : g.keepsCache) (ops : List (Op D W E S)) :
    ∀ (ts : List (Tree D W E S)) (s : State D W E S) (l : List (Option (Val D))), Inv ts s →
    Seen l s.vars → (∀ ob ∈ (run g s ops).1, ob ≠ .ret .ub) →
    Seen (trackAll l ops (run g s ops).1) (run g s ops).2.vars := by
  induction ops with
  | nil => intro ts s l _ hl _; simpa [run, trackAll] using hl
  | cons op ops ih =>
    intro ts s l hi hl hub
    simp only [run, List.mem_cons, forall_eq_or_imp] at hub ⊢
    simp only [trackAll]
    exact ih _ _ _ (step_inv g hi op) (seen_step g hg hi hl op hub.1) hub.2

theorem reach_seen (g : Glue) (hg : g.keepsCache) (w : W) (ops : List (Op D W E S))
    (hub : ∀ ob ∈ (run g (State.init w) ops).1, ob ≠ .ret .ub) :
    trackAll [] ops (run g (State.init w) ops).1 = (after g w ops).vars.map Obj.lastVal :=
  trackAll_seen g hg ops [] _ [] (init_inv w) rfl hub

/-! ### No call is ill-formed; copies dangle (C16) -/

theorem coreTail_wellFormed (g : Glue) (f : Fun D W E S) (cache : Cache D) (rs : List (LazyRes D))
    (env : Env D W S) : (coreTail g f cache rs env).1 ≠ .illFormed ∧
      ∀ r, (coreTail g f cache rs env).1 = .ok r → r.live = g.coreLive cache := by
  unfold coreTail
  simp only
  split
  · split
    · simp
    · rename_i values _
      rcases f with u | u
      all_goals
        simp only [Fun.call]
        rcases hi : (u.invoke _ _ env) with ⟨_ | v, u', env'⟩
        · simp [Out.map]
        · simp only
          split
          · refine ⟨by simp, ?_⟩
            intro r hr
            cases hr
            rfl
          · simp
  · split
    · refine ⟨by simp, ?_⟩
      intro r hr
      cases hr
      rfl
    · simp

mutual
theorem evalN_wellFormed (g : Glue) (o : Obj D W E S) (env : Env D W S) :
    (evalN g o env).1 ≠ .illFormed := by
  match o with
  | .lazyValue v c => simp [evalN]
  | .core f cache deps =>
    have hd := evalDeps_wellFormed g deps env
    rcases h : evalDeps g deps env with ⟨q, deps', env1⟩
    rw [h] at hd
    rcases q with rs | e | _ | _
    · rw [evalN_core_ok g f cache deps env h]; exact (coreTail_wellFormed g f cache rs env1).1
    · rw [evalN_core_fail g f cache deps env h rfl]; simp [Out.map]
    · rw [evalN_core_fail g f cache deps env h rfl]; simp [Out.map]
    · exact absurd rfl hd
  | .unwrapped i =>
    have := evalN_wellFormed g i env
    rw [evalN_unwrapped]
    rcases h : (evalN g i env).1 with _ | _ | _ | _ <;> simp_all [Out.map]
  | .unregularized i =>
    have := evalN_wellFormed g i env
    rw [evalN_unregularized]
    rcases h : (evalN g i env).1 with _ | _ | _ | _ <;> simp_all [Out.map]
theorem evalDeps_wellFormed (g : Glue) (ds : List (Obj D W E S)) (env : Env D W S) :
    (evalDeps g ds env).1 ≠ .illFormed := by
  match ds with
  | [] => simp [evalDeps]
  | d :: ds =>
    have h1 := evalN_wellFormed g d env
    rcases h : evalN g d env with ⟨q, d', env1⟩
    rw [h] at h1
    rcases q with r | e | _ | _
    · have h2 := evalDeps_wellFormed g ds env1
      simp only [evalDeps, h]
      rcases h' : evalDeps g ds env1 with ⟨q, ds', env2⟩
      rw [h'] at h2
      rcases q with _ | _ | _ | _ <;> simp_all [Out.map]
    · simp [evalDeps, h, Out.map]
    · simp [evalDeps, h, Out.map]
    · exact absurd rfl h1
end

theorem core_live (g : Glue) (f : Fun D W E S) (cache : Cache D) (deps : List (Obj D W E S))
    (env : Env D W S) (r : LazyRes D) (h : (evalN g (.core f cache deps) env).1 = .ok r) :
    r.live = g.coreLive cache := by
  rcases h' : evalDeps g deps env with ⟨q, deps', env1⟩
  rcases q with rs | e | _ | _
  · rw [evalN_core_ok g f cache deps env h'] at h
    exact (coreTail_wellFormed g f cache rs env1).2 r h
  all_goals rw [evalN_core_fail g f cache deps env h' rfl] at h; simp [Out.map] at h

theorem call0_dangles (g : Glue) (hr : g.resultByRef = true)
    (hc : g.bindFrontCopies = true ∨ g.unwrapParamByValue = true) (c : FnCode D W E S)
    (us : List (Tree D W E S)) (o : Obj D W E S) (env : Env D W S) (hsh : Shape (.lazy c us) o) :
    (call0 g o env).1 = .ub ∨ ∃ e, (call0 g o env).1 = .thrown e := by
  simp only [Shape] at hsh
  obtain ⟨u, cache, ds, rfl, hf, hds, rfl⟩ := hsh
  rw [call0_facade]
  have hwf := evalN_wellFormed g (.core (.regularized u) cache ds) env
  rcases he : (evalN g (.core (.regularized u) cache ds) env).1 with r | e | _ | _
  · left
    have hl := core_live g _ _ _ _ r he
    have : (r.live && !(g.resultByRef && g.unwrapParamByValue)) = false := by
      rw [hl, hr]
      rcases hc with h | h
      · cases cache <;> simp [Glue.coreLive, hr, h]
      · simp [h]
    simp only [this, Bool.false_eq_true, if_false]
  · exact .inr ⟨e, rfl⟩
  · exact .inl rfl
  · exact absurd he hwf

/-! ### Chains of own states (C18) -/

omit [CxxData D] in
theorem Threads.ids {l l' : List (Nat × S)} {rs} (h : Threads l rs l') :
    l'.map (·.1) = l.map (·.1) := by
  induction h with
  | nil => rfl
  | skip c _ ih => simp [ih]
  | run id s s' _ ih => simp [ih]

omit [CxxData D] in
theorem Threads.mem_ids {l l' : List (Nat × S)} {rs} (h : Threads l rs l') :
    ∀ r ∈ rs, r.1 ∈ l.map (·.1) := by
  induction h with
  | nil => simp
  | skip c _ ih => intro r hr; exact List.mem_cons_of_mem _ (ih r hr)
  | run id s s' _ ih =>
    intro r hr
    rcases List.mem_cons.1 hr with rfl | hr
    · simp
    · exact List.mem_cons_of_mem _ (ih r hr)

omit [CxxData D] in
theorem Threads.chain {l l' : List (Nat × S)} {rs} (h : Threads l rs l') :
    (l.map (·.1)).Nodup → ∀ x s, (x, s) ∈ l →
    ∃ s', (x, s') ∈ l' ∧ ChainFrom s ((rs.filter (fun r => r.1 == x)).map (·.2)) s' := by
  have hnone : ∀ {l l' : List (Nat × S)} {rs}, Threads l rs l' → ∀ x, x ∉ l.map (·.1) →
      rs.filter (fun r => r.1 == x) = [] := by
    intro l l' rs h x hx
    rw [List.filter_eq_nil_iff]
    intro r hr hrx
    exact hx ((beq_iff_eq.1 hrx) ▸ h.mem_ids r hr)
  induction h with
  | nil => simp
  | skip c hrest ih =>
    intro hnd x s hm
    simp only [List.map_cons, List.nodup_cons] at hnd
    rcases List.mem_cons.1 hm with heq | hm
    · subst heq
      exact ⟨s, by simp, by rw [hnone hrest x hnd.1]; exact .nil s⟩
    · obtain ⟨s', h1, h2⟩ := ih hnd.2 x s hm
      exact ⟨s', List.mem_cons_of_mem _ h1, h2⟩
  | run id s0 s1 hrest ih =>
    intro hnd x s hm
    simp only [List.map_cons, List.nodup_cons] at hnd
    rcases List.mem_cons.1 hm with heq | hm
    · cases heq
      refine ⟨s1, by simp, ?_⟩
      rw [List.filter_cons_of_pos (by simp), hnone hrest _ hnd.1]
      exact .cons _ _ (.nil _)
    · obtain ⟨s', h1, h2⟩ := ih hnd.2 x s hm
      have hne : id ≠ x := by
        rintro rfl
        exact hnd.1 (List.mem_map.2 ⟨_, hm, rfl⟩)
      exact ⟨s', List.mem_cons_of_mem _ h1, by
        rw [List.filter_cons_of_neg (by simpa using hne)]; exact h2⟩

omit [CxxData D] in
theorem ChainFrom.append {s s1 s2 : S} {l1 l2} (h1 : ChainFrom s l1 s1) (h2 : ChainFrom s1 l2 s2) :
    ChainFrom s (l1 ++ l2) s2 := by
  induction h1 with
  | nil => exact h2
  | cons a b _ ih => exact .cons a b (ih h2)

omit [CxxData D] in
theorem runsOf_append (x : Nat) (a b : List (Ev D S)) :
    runsOf x (a ++ b) = runsOf x a ++ runsOf x b := by
  simp [runsOf, runs_append]

/-- Own states chain over any sequence of evaluations of one variable. -/
theorem run_chain (g : Glue) (hg : g.keepsFns = true) (i : Nat) (rest : List (Op D W E S)) :
    ∀ (c : FnCode D W E S) (ts : List (Tree D W E S)) (o : Obj D W E S) (s : State D W E S),
    s.vars[i]? = some o → Shape (.lazy c ts) o → (o.insts.map (·.1)).Nodup →
    (∀ op ∈ rest, op = .call i ∨ op = .poll i ∨ ∃ h, op = .poke h) →
    ∃ o' evs, (run g s rest).2.vars[i]? = some o' ∧ (run g s rest).2.env.log = s.env.log ++ evs ∧
      ∀ x st, (x, st) ∈ o.insts → ∃ st', (x, st') ∈ o'.insts ∧ ChainFrom st (runsOf x evs) st' := by
  induction rest with
  | nil =>
    intro c ts o s ho _ _ _
    exact ⟨o, [], ho, by simp [run], fun x st hx => ⟨st, hx, by simpa [runsOf, runs] using .nil st⟩⟩
  | cons op rest ih =>
    intro c ts o s ho hsh hnd hr
    have hr' := fun op hop => hr op (List.mem_cons_of_mem _ hop)
    have heval : ∀ r1 (s1 : State D W E S), step g s op = (r1, s1) →
        s1 = ⟨s.vars.set i (evalN g o s.env).2.1, (evalN g o s.env).2.2⟩ →
        ∃ o' evs, (run g s (op :: rest)).2.vars[i]? = some o' ∧
          (run g s (op :: rest)).2.env.log = s.env.log ++ evs ∧
          ∀ x st, (x, st) ∈ o.insts →
            ∃ st', (x, st') ∈ o'.insts ∧ ChainFrom st (runsOf x evs) st' := by
      intro r1 s1 hs1 hs1e
      obtain ⟨evs, l', hlog, hth, hkeep, _, _⟩ := (evalN_oneCall g _ o s.env hsh).ex
      have hk := hkeep hg
      have hset : s1.vars[i]? = some (evalN g o s.env).2.1 := by
        rw [hs1e]; exact set_get _ _ _ _ ho
      have hnd' : ((evalN g o s.env).2.1.insts.map (·.1)).Nodup := by
        rw [hk, hth.ids]; exact hnd
      obtain ⟨o', evs', h1, h2, h3⟩ := ih c ts _ s1 hset (evalN_shape g _ _ s.env hsh) hnd' hr'
      refine ⟨o', evs ++ evs', by simpa [run, hs1] using h1, ?_, ?_⟩
      · simp only [run, hs1, h2]
        rw [hs1e]
        simp [hlog]
      · intro x st hx
        obtain ⟨st1, ha, hb⟩ := hth.chain hnd x st hx
        obtain ⟨st2, hc, hd⟩ := h3 x st1 (by rw [hk]; exact ha)
        exact ⟨st2, hc, by rw [runsOf_append]; exact ChainFrom.append hb hd⟩
    rcases hr op (by simp) with rfl | rfl | ⟨h, rfl⟩
    · refine heval _ _ (step_call g s i o ho) ?_
      rw [call0_obj g _ _ _ s.env hsh]
    · exact heval _ _ (step_poll g s i o ho) rfl
    · obtain ⟨o', evs', h1, h2, h3⟩ := ih c ts o (step g s (.poke h)).2 ho hsh hnd hr'
      exact ⟨o', evs', h1, by simpa [run, step] using h2, h3⟩

end Pigro
