import Verif.Proofs.OneCall
import Verif.Spec.Eager
/-!
# Freshness: one call
-/
namespace Pigro
variable {D W E S O : Type} [CxxData D]

/-! ### Comparisons -/
mutual
theorem Val.ne_sound (h : SoundNe D) (a b : Val D) (hn : Val.ne a b = false) : a = b := by
  match a, b with
  | .data x, .data y => simp only [Val.ne] at hn; rw [h x y hn]
  | .rvoid, .rvoid => rfl
  | .tup as, .tup bs => simp only [Val.ne] at hn; rw [Val.neList_sound h as bs hn]
  | .data _, .rvoid => simp [Val.ne] at hn
  | .data _, .tup _ => simp [Val.ne] at hn
  | .rvoid, .data _ => simp [Val.ne] at hn
  | .rvoid, .tup _ => simp [Val.ne] at hn
  | .tup _, .data _ => simp [Val.ne] at hn
  | .tup _, .rvoid => simp [Val.ne] at hn
theorem Val.neList_sound (h : SoundNe D) (as bs : List (Val D)) (hn : Val.neList as bs = false) :
    as = bs := by
  match as, bs with
  | [], [] => rfl
  | a :: as, b :: bs =>
    simp only [Val.neList, Bool.or_eq_false_iff] at hn
    rw [Val.ne_sound h a b hn.1, Val.neList_sound h as bs hn.2]
  | [], _ :: _ => simp [Val.neList] at hn
  | _ :: _, [] => simp [Val.neList] at hn
end

mutual
theorem Val.ne_refl (h : ReflNe D) (a : Val D) : Val.ne a a = false := by
  match a with
  | .data x => simp only [Val.ne]; exact h x
  | .rvoid => simp [Val.ne]
  | .tup as => simp only [Val.ne]; exact Val.neList_refl h as
theorem Val.neList_refl (h : ReflNe D) (as : List (Val D)) : Val.neList as as = false := by
  match as with
  | [] => simp [Val.neList]
  | a :: as => simp [Val.neList, Val.ne_refl h a, Val.neList_refl h as]
end

omit [CxxData D] in
/-- The value in the cache, if any. -/
def Cache.val? : Cache D → Option (Val D)
  | .opt o => o
  | .rv o => if o.toBool then some .rvoid else none

omit [CxxData D] in
/-- The value the object returned at its last evaluation, if any. -/
def Obj.lastVal : Obj D W E S → Option (Val D)
  | .lazyValue v _ => some v
  | .core _ cache _ => cache.val?
  | .unwrapped i => i.lastVal
  | .unregularized i => i.lastVal

omit [CxxData D] in
theorem Cache.engaged_val? (c : Cache D) : c.engaged = c.val?.isSome := by
  rcases c with o | ⟨⟨b⟩⟩
  · rfl
  · cases b <;> rfl

omit [CxxData D] in
theorem Cache.deref_of_val? (c : Cache D) {v : Val D} (h : c.val? = some v) : c.deref = some v := by
  rcases c with o | ⟨⟨b⟩⟩
  · exact h
  · cases b <;> simp_all [Cache.val?, OptRV.toBool, Cache.deref]

omit [CxxData D] in
theorem Cache.assign_val? {c : Cache D} {r : RetTy} (hf : c.Fits r) (v : Val D) :
    (c.assign (r.regularize v)).val? = some (r.regularize v) := by
  rcases c with o | ⟨⟨b⟩⟩
  · rfl
  · cases r <;> simp_all [Cache.Fits, Cache.assign, Cache.val?, OptRV.assign, OptRV.toBool,
      RetTy.regularize]

theorem Cache.ne_val? {c : Cache D} {r : RetTy} (hf : c.Fits r) (v : Val D) :
    c.ne (r.regularize v) = match c.val? with
      | none => true
      | some x => Val.ne x (r.regularize v) := by
  rcases c with o | ⟨⟨b⟩⟩
  · cases o <;> rfl
  · cases b <;> cases r <;> simp_all [Cache.Fits, Cache.ne, Cache.val?, OptRV.ne, OptRV.toBool,
      RetTy.regularize, OptRV.ofRV, Val.ne]

theorem any_eq {α : Type} (p : α → Bool) (l : List α) : any p l = l.any p := by
  unfold any
  induction l with
  | nil => rfl
  | cons a l ih =>
    simp only [anyS, List.any_cons]
    cases h : p a <;> simp [ih]

theorem mapState_pure {α β : Type} (f : α → β) (l : List α) :
    (mapState (fun a (_ : Unit) => (f a, ())) l ()).1 = l.map f := by
  induction l with
  | nil => rfl
  | cons a l ih => simp [mapState, ih]

theorem transform_eq {α β : Type} (asT : β → Option (List β)) (f : α → β) (l : List α) :
    transform asT f l = tupleCTAD asT (l.map f) := by
  simp [transform, transformS, mapState_pure]

theorem tupleCTAD_id {β : Type} (asT : β → Option (List β)) (l : List β)
    (h : ∀ x, l = [x] → asT x = none) : tupleCTAD asT l = l := by
  match l with
  | [] => rfl
  | [x] => simp [tupleCTAD, h x rfl]
  | _ :: _ :: _ => rfl

/-! ### The consistency invariant -/

mutual
/-- Every engaged cache of a wrapped function holds its value on the last values of the dependencies. -/
def Cons (m : Meaning D W E S O) : Tree D W E S → Obj D W E S → Prop
  | .value _, _ => True
  | .function _, _ => True
  | .lazy c ts, o => ∃ f cache ds, o = .unregularized (.unwrapped (.core f cache ds)) ∧
      (∀ v, cache.val? = some v → ∃ vs, ds.map Obj.lastVal = vs.map some ∧
        v = c.ret.regularize (m.fn c vs)) ∧ ConsL m ts ds
/-- Element-wise `Cons`. -/
def ConsL (m : Meaning D W E S O) : List (Tree D W E S) → List (Obj D W E S) → Prop
  | [], _ => True
  | t :: ts, ds => ∃ d ds', ds = d :: ds' ∧ Cons m t d ∧ ConsL m ts ds'
end

/-- What `is_changed` should be. -/
def flag (last : Option (Val D)) (v : Val D) : Bool :=
  match last with
  | none => true
  | some x => Val.ne x v

/-- The node is (re-)evaluated: nothing cached, or a dependency's value differs from its last one. -/
def stale (last : Option (Val D)) (dlast : List (Option (Val D))) (now : List (Val D)) : Bool :=
  last.isNone || (List.zipWith flag dlast now).any id

mutual
/-- Wrapped functions invoked by a call, in terms of the last values. -/
def expect (m : Meaning D W E S O) (ob : O) : Tree D W E S → Obj D W E S →
    List (Nat × List (Val D))
  | .lazy c ts, .unregularized (.unwrapped (.core _ cache ds)) =>
    expectL m ob ts ds ++
      if stale cache.val? (ds.map Obj.lastVal) (ts.map (m.eager ob))
      then [(c.id, ts.map (m.eager ob))] else []
  | _, _ => []
/-- List version. -/
def expectL (m : Meaning D W E S O) (ob : O) : List (Tree D W E S) → List (Obj D W E S) →
    List (Nat × List (Val D))
  | t :: ts, d :: ds => expect m ob t d ++ expectL m ob ts ds
  | _, _ => []
end

/-- Comparison of old and new value of one node. -/
def cmpOne (r : RetTy) (last : Option (Val D)) (new : Val D) : List (Val D × Val D) :=
  if r = .val then (match last with | none => [] | some x => [(x, new)]) else []

mutual
/-- Comparisons made by a call, in terms of the last values. -/
def expectCmp (m : Meaning D W E S O) (ob : O) : Tree D W E S → Obj D W E S →
    List (Val D × Val D)
  | .lazy c ts, .unregularized (.unwrapped (.core _ cache ds)) =>
    expectCmpL m ob ts ds ++
      if stale cache.val? (ds.map Obj.lastVal) (ts.map (m.eager ob))
      then cmpOne c.ret cache.val? (m.eager ob (.lazy c ts)) else []
  | .function c, .core _ cache _ => cmpOne c.ret cache.val? (m.eager ob (.function c))
  | _, _ => []
/-- List version. -/
def expectCmpL (m : Meaning D W E S O) (ob : O) : List (Tree D W E S) → List (Obj D W E S) →
    List (Val D × Val D)
  | t :: ts, d :: ds => expectCmp m ob t d ++ expectCmpL m ob ts ds
  | _, _ => []
end

/-! ### Small facts about outcomes -/

omit [CxxData D] in
theorem call_regularized_ok {m : Meaning D W E S O} (g : Glue) (u : UFn D W E S)
    (hm : m.FnOk u.toFnCode) (args : List (Val D)) (env : Env D W S) :
    ∃ u' env', Fun.call g (.regularized u) args env =
      (.ok (u.ret.regularize (m.fn u.toFnCode args)), .regularized u', env') ∧
      m.obs env'.w = m.obs env.w ∧ fnCalls env'.log = fnCalls env.log ++ [(u.id, args)] ∧
      cmps env'.log = cmps env.log := by
  obtain ⟨h1, h2⟩ := hm u.st args env.w
  refine ⟨keep g.regParamByValue u (u.invoke .fn args env).2.1, (u.invoke .fn args env).2.2,
    ?_, h2, ?_, ?_⟩
  · simp [Fun.call, UFn.invoke, h1]
  · simp [UFn.invoke, fnCalls]
  · simp [UFn.invoke, cmps]

omit [CxxData D] in
theorem call_wrapDep_ok {m : Meaning D W E S O} (g : Glue) (u : UFn D W E S)
    (hm : m.LeafOk u.toFnCode) (args : List (Val D)) (env : Env D W S) :
    ∃ u' env', Fun.call g (.wrapDep u) args env =
      (.ok (u.ret.regularize (m.leaf u.toFnCode (m.obs env.w))), .wrapDep u', env') ∧
      m.obs env'.w = m.obs env.w ∧ fnCalls env'.log = fnCalls env.log ∧
      cmps env'.log = cmps env.log := by
  obtain ⟨h1, h2⟩ := hm u.st env.w
  refine ⟨keep g.wrapParamByValue u (u.invoke .dep [] env).2.1, (u.invoke .dep [] env).2.2,
    ?_, h2, ?_, ?_⟩
  · simp [Fun.call, UFn.invoke, h1]
  · simp [UFn.invoke, fnCalls]
  · simp [UFn.invoke, cmps]

theorem coreTail_run (g : Glue) (f f' : Fun D W E S) (cache : Cache D) (rs : List (LazyRes D))
    (env env' : Env D W S) (args : List (Val D)) (ret : RetTy) (x : Val D)
    (h : (!cache.engaged || any LazyRes.isChanged rs) = true) (hr : readValues rs = some args)
    (hc : f.call g args env = (.ok (ret.regularize x), f', env')) (hf : cache.Fits ret) :
    coreTail g f cache rs env =
      (.ok ⟨ret.regularize x, cache.ne (ret.regularize x), g.coreLive cache⟩, f',
        cache.assign (ret.regularize x),
        { env' with log := env'.log ++ cmpEvents cache (ret.regularize x) }) := by
  have hd := Cache.deref_of_val? _ (Cache.assign_val? hf x)
  simp only [coreTail, h, if_true, hr, hc, hd]

theorem coreTail_skip (g : Glue) (f : Fun D W E S) (cache : Cache D) (rs : List (LazyRes D))
    (env : Env D W S) (v : Val D)
    (h : any LazyRes.isChanged rs = false) (hv : cache.val? = some v) :
    coreTail g f cache rs env = (.ok ⟨v, false, g.coreLive cache⟩, f, cache, env) := by
  have hd := Cache.deref_of_val? _ hv
  have he : cache.engaged = true := by rw [Cache.engaged_val?, hv]; rfl
  simp [coreTail, h, he, hd]

omit [CxxData D] in
theorem cmpEvents_cmps {c : Cache D} {r : RetTy} (hf : c.Fits r) (v : Val D) :
    cmps (cmpEvents c v : List (Ev D S)) = cmpOne r c.val? v := by
  rcases c with o | ⟨⟨b⟩⟩
  · simp only [Cache.Fits] at hf
    subst hf
    cases o <;> simp [cmpEvents, cmpOne, cmps, Cache.val?]
  · simp only [Cache.Fits] at hf
    cases b <;> simp [cmpEvents, cmpOne, cmps, hf]

mutual
/-- Every node of the object was last evaluated to its eager value at `ob`. -/
def LastAll (m : Meaning D W E S O) (ob : O) : Tree D W E S → Obj D W E S → Prop
  | .value v, o => o.lastVal = some v
  | .function c, o => o.lastVal = some (m.eager ob (.function c))
  | .lazy c ts, o => ∃ f cache ds, o = .unregularized (.unwrapped (.core f cache ds)) ∧
      cache.val? = some (m.eager ob (.lazy c ts)) ∧ LastAllL m ob ts ds
/-- Element-wise `LastAll`. -/
def LastAllL (m : Meaning D W E S O) (ob : O) : List (Tree D W E S) → List (Obj D W E S) → Prop
  | [], ds => ds = []
  | t :: ts, ds => ∃ d ds', ds = d :: ds' ∧ LastAll m ob t d ∧ LastAllL m ob ts ds'
end

omit [CxxData D] in
theorem LastAll.lastVal {m : Meaning D W E S O} {ob : O} {t : Tree D W E S} {o : Obj D W E S}
    (h : LastAll m ob t o) : o.lastVal = some (m.eager ob t) := by
  cases t with
  | value v => simpa [LastAll, Meaning.eager] using h
  | function c => simpa [LastAll] using h
  | lazy c ts =>
    simp only [LastAll] at h
    obtain ⟨f, cache, ds, rfl, h, _⟩ := h
    simpa [Obj.lastVal] using h

omit [CxxData D] in
theorem LastAllL.lastVals {m : Meaning D W E S O} {ob : O} {ts : List (Tree D W E S)}
    {ds : List (Obj D W E S)} (h : LastAllL m ob ts ds) :
    ds.map Obj.lastVal = (ts.map (m.eager ob)).map some := by
  induction ts generalizing ds with
  | nil => simp only [LastAllL] at h; subst h; rfl
  | cons t ts ih =>
    simp only [LastAllL] at h
    obtain ⟨d, ds', rfl, h1, h2⟩ := h
    simp [h1.lastVal, ih h2]

omit [CxxData D] in
mutual
theorem LastAll.cons {m : Meaning D W E S O} {ob : O} (t : Tree D W E S) (o : Obj D W E S)
    (h : LastAll m ob t o) : Cons m t o := by
  match t with
  | .value v => simp [Cons]
  | .function c => simp [Cons]
  | .lazy c ts =>
    simp only [LastAll] at h
    obtain ⟨f, cache, ds, rfl, h, hl⟩ := h
    simp only [Cons]
    refine ⟨f, cache, ds, rfl, ?_, LastAllL.consL ts ds hl⟩
    intro v hv
    rw [h] at hv
    simp only [Option.some.injEq] at hv
    exact ⟨ts.map (m.eager ob), hl.lastVals, by rw [← hv, Meaning.eager]⟩
theorem LastAllL.consL {m : Meaning D W E S O} {ob : O} (ts : List (Tree D W E S))
    (ds : List (Obj D W E S)) (h : LastAllL m ob ts ds) : ConsL m ts ds := by
  match ts with
  | [] => simp [ConsL]
  | t :: ts =>
    simp only [LastAllL] at h
    obtain ⟨d, ds', rfl, h1, h2⟩ := h
    simp only [ConsL]
    exact ⟨d, ds', rfl, LastAll.cons t d h1, LastAllL.consL ts ds' h2⟩
end

omit [CxxData D] in
theorem Glue.SafeFor.sub {g : Glue} {c : FnCode D W E S} {ts : List (Tree D W E S)}
    (h : g.SafeFor (.lazy c ts)) : ∀ t ∈ ts, g.SafeFor t := by
  intro t ht
  rcases h with h | ⟨h1, h2, h3, h4, h5⟩
  · exact .inl h
  · cases h5 with
    | lazy _ _ _ h5 => exact .inr ⟨h1, h2, h3, h4, h5 t ht⟩

/-- Everything about one evaluation of a consistent object. -/
def StepOk (g : Glue) (m : Meaning D W E S O) (t : Tree D W E S) (o : Obj D W E S)
    (env : Env D W S) : Prop :=
  ∃ r o' env', evalN g o env = (.ok r, o', env') ∧ r.value = m.eager (m.obs env.w) t ∧
    r.live = true ∧ (r.isChanged = false → o.lastVal = some r.value) ∧
    m.obs env'.w = m.obs env.w ∧ (g.Retains → LastAll m (m.obs env.w) t o') ∧
    (ReflNe D → r.isChanged = flag o.lastVal r.value ∧
      fnCalls env'.log = fnCalls env.log ++ expect m (m.obs env.w) t o ∧
      cmps env'.log = cmps env.log ++ expectCmp m (m.obs env.w) t o)

/-- List version of `StepOk`. -/
def StepOkL (g : Glue) (m : Meaning D W E S O) (ts : List (Tree D W E S)) (ds : List (Obj D W E S))
    (env : Env D W S) : Prop :=
  ∃ rs ds' env', evalDeps g ds env = (.ok rs, ds', env') ∧
    rs.map LazyRes.value = ts.map (m.eager (m.obs env.w)) ∧
    rs.all (·.live) = true ∧
    (rs.any (·.isChanged) = false → ds.map Obj.lastVal = (rs.map LazyRes.value).map some) ∧
    m.obs env'.w = m.obs env.w ∧ (g.Retains → LastAllL m (m.obs env.w) ts ds') ∧
    (ReflNe D → rs.map LazyRes.isChanged =
        List.zipWith flag (ds.map Obj.lastVal) (rs.map LazyRes.value) ∧
      fnCalls env'.log = fnCalls env.log ++ expectL m (m.obs env.w) ts ds ∧
      cmps env'.log = cmps env.log ++ expectCmpL m (m.obs env.w) ts ds)

omit [CxxData D] in
theorem readValues_live {rs : List (LazyRes D)} (h : rs.all (·.live) = true)
    (hl : ∀ r, rs = [r] → r.value.asTuple = none) :
    readValues rs = some (rs.map LazyRes.value) := by
  simp only [readValues, h, if_true]
  rw [transform_eq, tupleCTAD_id]
  intro x hx
  match rs, hx with
  | [r], hx => simp only [List.map_cons, List.map_nil, List.cons.injEq, and_true] at hx
               rw [← hx]; exact hl r rfl

omit [CxxData D] in
theorem map_isChanged_any (rs : List (LazyRes D)) :
    rs.any (·.isChanged) = (rs.map LazyRes.isChanged).any id := by
  rw [List.any_map]; rfl

mutual
theorem evalN_stepOk (hs : SoundNe D) (g : Glue) (m : Meaning D W E S O) (t : Tree D W E S)
    (o : Obj D W E S) (env : Env D W S) (h : Shape t o) (hok : m.Ok t) (hnl : m.NoLone t)
    (hsafe : g.SafeFor t) (hc : Cons m t o) : StepOk g m t o env := by
  match t with
  | .value v =>
    simp only [Shape] at h; subst h
    refine ⟨_, _, _, rfl, ?_, ?_, ?_, rfl, ?_, ?_⟩
    · simp [Meaning.eager]
    · rcases hsafe with h | ⟨_, _, _, h, _⟩ <;> simp [h]
    · intro _; rfl
    · intro _; simp [LastAll, Obj.lastVal]
    · intro hr; simp [flag, Obj.lastVal, Val.ne_refl hr, expect, expectCmp]
  | .function c =>
    simp only [Shape] at h
    obtain ⟨u, cache, rfl, hv, hf, rfl⟩ := h
    have hlive : (!(g.resultByRef && g.valueParamByValue)) = true := by
      rcases hsafe with h | ⟨_, _, _, h, _⟩ <;> simp [h]
    have hd : evalDeps g [Obj.lazyValue (.data CxxData.zero) true] env =
        (.ok [⟨.data CxxData.zero, true, true⟩],
          [(Obj.lazyValue (.data CxxData.zero) true : Obj D W E S)], env) := by
      simp [evalDeps, evalN, Out.map, hlive]
    have hlf : m.LeafOk u.toFnCode := by cases hok; assumption
    obtain ⟨u', env', hcall, hobs, hfn, hcmp⟩ := call_wrapDep_ok g u hlf
      [.data CxxData.zero] env
    have htail := coreTail_run g (.wrapDep u) (.wrapDep u') cache
      [⟨.data CxxData.zero, true, true⟩] env env' [.data CxxData.zero] u.ret
      (m.leaf u.toFnCode (m.obs env.w)) (by simp [any, anyS]) (by rfl) hcall hf
    have hcl : g.coreLive cache = true := by
      rcases hsafe with h | ⟨h, _, _, _, h'⟩
      · cases cache <;> simp [Glue.coreLive, h]
      · cases h' with
        | function _ h' => cases cache <;> simp_all [Glue.coreLive, Cache.Fits]
    refine ⟨_, _, _, evalN_core_ok g (.wrapDep u) cache _ env hd |>.trans (by rw [htail]),
      ?_, ?_, ?_, ?_, ?_, ?_⟩
    · simp [Meaning.eager]
    · exact hcl
    · simp only [Cache.ne_val? hf, Obj.lastVal]
      intro h
      rcases hcv : cache.val? with _ | x
      · rw [hcv] at h; simp at h
      · rw [hcv] at h; simp only at h; rw [Val.ne_sound hs _ _ h]
    · exact hobs
    · intro ⟨ha, _, _, _⟩
      simp only [ha, keep_false, LastAll, Obj.lastVal]
      rw [Cache.assign_val? hf, Meaning.eager]
    · intro hr
      refine ⟨?_, ?_, ?_⟩
      · simp only [Cache.ne_val? hf, Obj.lastVal, flag]
      · simp [expect, hfn, (cmpEvents_simple (S := S) cache _).2.2.1]
      · simp [expectCmp, hcmp, cmpEvents_cmps hf, Meaning.eager]
  | .lazy c ts =>
    simp only [Shape] at h
    obtain ⟨u, cache, ds, rfl, hf, hds, rfl⟩ := h
    simp only [Cons] at hc
    obtain ⟨_, _, _, heq, hcache, hcl⟩ := hc
    simp only [Obj.unregularized.injEq, Obj.unwrapped.injEq, Obj.core.injEq] at heq
    obtain ⟨rfl, rfl, rfl⟩ := heq
    have hfn : m.FnOk u.toFnCode := by cases hok; assumption
    have hoks : ∀ t ∈ ts, m.Ok t := by cases hok; assumption
    have hnls : ∀ t ∈ ts, m.NoLone t := by cases hnl; assumption
    have hlone : ∀ t, ts = [t] → ∀ o vs, m.eager o t ≠ .tup vs := by cases hnl; assumption
    obtain ⟨rs, ds', env1, he, hval, hlive, hunch, hobs, hret, hrefl⟩ :=
      evalDeps_stepOk hs g m ts ds env hds hoks hnls hsafe.sub hcl
    have hrv : readValues rs = some (ts.map (m.eager (m.obs env.w))) := by
      rw [readValues_live hlive, hval]
      intro r hr
      subst hr
      have hlen : ts.length = 1 := by
        have := congrArg List.length hval; simpa using this.symm
      obtain ⟨t, ht⟩ := List.length_eq_one_iff.1 hlen
      have := hlone t ht (m.obs env.w)
      rw [ht] at hval
      simp only [List.map_cons, List.map_nil, List.cons.injEq, and_true] at hval
      rw [← hval] at this
      cases hx : r.value with
      | tup vs => exact absurd hx (this vs)
      | _ => rfl
    have hclive : g.coreLive cache = true := by
      rcases hsafe with h | ⟨h, _, _, _, h'⟩
      · cases cache <;> simp [Glue.coreLive, h]
      · cases h' with
        | lazy _ _ h' => cases cache <;> simp_all [Glue.coreLive, Cache.Fits]
    have hthru : (g.resultByRef && (g.facadeParamByValue || g.unwrapParamByValue)) = false := by
      rcases hsafe with h | ⟨_, h2, h3, _, _⟩
      · simp [h]
      · simp [h2, h3]
    have hflag : ReflNe D → stale cache.val? (ds.map Obj.lastVal)
        (ts.map (m.eager (m.obs env.w))) =
        (!cache.engaged || any LazyRes.isChanged rs) := by
      intro hr
      rw [any_eq, Cache.engaged_val?, map_isChanged_any, (hrefl hr).1, hval]
      simp only [stale]
      congr 1
      cases cache.val? <;> rfl
    rw [StepOk]
    simp only [evalN_facade, evalN_core_ok g (.regularized u) cache ds env he]
    by_cases hch : (!cache.engaged || any LazyRes.isChanged rs) = true
    · obtain ⟨u', env2, hcall, hobs2, hfn2, hcmp2⟩ := call_regularized_ok g u hfn
        (ts.map (m.eager (m.obs env.w))) env1
      rw [coreTail_run g (.regularized u) (.regularized u') cache rs env1 env2 _ u.ret _ hch hrv
        hcall hf]
      refine ⟨_, _, _, rfl, ?_, ?_, ?_, ?_, ?_, ?_⟩
      · simp [LazyRes.through, Meaning.eager]
      · simp [LazyRes.through, hclive, hthru]
      · simp only [LazyRes.through, Cache.ne_val? hf, Obj.lastVal]
        intro h
        rcases hcv : cache.val? with _ | x
        · rw [hcv] at h; simp at h
        · rw [hcv] at h; simp only at h; rw [Val.ne_sound hs _ _ h]
      · simp [hobs2, hobs]
      · intro hR
        have hR' := hret hR
        obtain ⟨ha, hb, hc, hd⟩ := hR
        simp only [ha, hb, hc, hd, keep_false, LastAll, Bool.or_self]
        exact ⟨_, _, _, rfl, by rw [Cache.assign_val? hf, Meaning.eager], hR'⟩
      · intro hr
        refine ⟨?_, ?_, ?_⟩
        · simp only [LazyRes.through, Cache.ne_val? hf, Obj.lastVal, flag]
        · simp [expect, hfn2, (cmpEvents_simple (S := S) cache _).2.2.1, (hrefl hr).2.1, hflag hr, hch]
        · simp [expectCmp, hcmp2, cmpEvents_cmps hf, Meaning.eager, (hrefl hr).2.2, hflag hr, hch]
    · simp only [Bool.not_eq_true] at hch
      have hch' := hch
      simp only [Bool.or_eq_false_iff, Bool.not_eq_false'] at hch'
      obtain ⟨heng, hany⟩ := hch'
      rw [Cache.engaged_val?] at heng
      obtain ⟨v, hv⟩ := Option.isSome_iff_exists.1 heng
      obtain ⟨vs, hvs1, hvs2⟩ := hcache v hv
      have hun := hunch (by rw [← any_eq]; exact hany)
      rw [hval] at hun
      have hvseq : vs = ts.map (m.eager (m.obs env.w)) := by
        have := hvs1.symm.trans hun
        exact (List.map_inj_right (fun _ _ h => Option.some.inj h)).1 this
      have hve : v = m.eager (m.obs env.w) (.lazy u.toFnCode ts) := by
        rw [hvs2, hvseq, Meaning.eager]
      rw [coreTail_skip g (.regularized u) cache rs env1 v hany hv]
      refine ⟨_, _, _, rfl, ?_, ?_, ?_, ?_, ?_, ?_⟩
      · simp [LazyRes.through, hve]
      · simp [LazyRes.through, hclive, hthru]
      · intro _; simp [LazyRes.through, Obj.lastVal, hv]
      · exact hobs
      · intro hR
        have hR' := hret hR
        obtain ⟨ha, hb, hc, hd⟩ := hR
        simp only [hb, hc, hd, keep_false, keep_self, LastAll, Bool.or_self]
        exact ⟨_, _, _, rfl, by rw [hv, hve], hR'⟩
      · intro hr
        refine ⟨?_, ?_, ?_⟩
        · simp [LazyRes.through, Obj.lastVal, flag, hv, Val.ne_refl hr]
        · simp [expect, (hrefl hr).2.1, hflag hr, hch]
        · simp [expectCmp, (hrefl hr).2.2, hflag hr, hch]
theorem evalDeps_stepOk (hs : SoundNe D) (g : Glue) (m : Meaning D W E S O)
    (ts : List (Tree D W E S)) (ds : List (Obj D W E S)) (env : Env D W S) (h : ShapeL ts ds)
    (hok : ∀ t ∈ ts, m.Ok t) (hnl : ∀ t ∈ ts, m.NoLone t) (hsafe : ∀ t ∈ ts, g.SafeFor t)
    (hc : ConsL m ts ds) : StepOkL g m ts ds env := by
  match ts with
  | [] =>
    simp only [ShapeL] at h; subst h
    exact ⟨[], [], env, by simp [evalDeps], by simp [LastAllL, expectL, expectCmpL]⟩
  | t :: ts =>
    simp only [ShapeL] at h
    obtain ⟨d, ds', hd, hds, rfl⟩ := h
    simp only [ConsL] at hc
    obtain ⟨_, _, heq, hc1, hc2⟩ := hc
    simp only [List.cons.injEq] at heq
    obtain ⟨rfl, rfl⟩ := heq
    obtain ⟨r, d', env1, e1, e2, e3, e4, e5, e6, e7⟩ := evalN_stepOk hs g m t d env hd
      (hok t (by simp)) (hnl t (by simp)) (hsafe t (by simp)) hc1
    obtain ⟨rs, ds'', env2, q1, q2, q3, q4, q5, q6, q7⟩ := evalDeps_stepOk hs g m ts ds' env1 hds
      (fun t ht => hok t (by simp [ht])) (fun t ht => hnl t (by simp [ht]))
      (fun t ht => hsafe t (by simp [ht])) hc2
    rw [e5] at q2 q5 q6 q7
    refine ⟨r :: rs, d' :: ds'', env2, by simp [evalDeps, e1, q1, Out.map], by simp [e2, q2],
      by simp [e3, q3], ?_, q5, ?_, ?_⟩
    · intro hch
      simp only [List.any_cons, Bool.or_eq_false_iff] at hch
      simp [e4 hch.1, q4 hch.2]
    · intro hR
      simp only [LastAllL]
      exact ⟨_, _, rfl, e6 hR, q6 hR⟩
    · intro hr
      obtain ⟨a1, a2, a3⟩ := e7 hr
      obtain ⟨b1, b2, b3⟩ := q7 hr
      simp [a1, b1, a2, b2, a3, b3, expectL, expectCmpL]
end

end Pigro
