import Verif.Spec.ConstDep
import Verif.Proofs.Sugar
/-!
# Proofs: plain functions that always return the same
-/
namespace Pigro
variable {D W E S : Type}

section
variable {α : Type} {P : α → Prop}

theorem Without.refl (l : List α) : Without P l l := by
  induction l with
  | nil => exact .nil
  | cons a l ih => exact .keep a ih

theorem Without.append {a a' b b' : List α} (h : Without P a a') (h' : Without P b b') : Without P (a ++ b) (a' ++ b') := by
  induction h with
  | nil => exact h'
  | keep x _ ih => exact .keep x ih
  | drop x hx _ ih => exact .drop x hx ih

theorem Without.mono {Q : α → Prop} {l l' : List α} (h : ∀ a, P a → Q a) (hw : Without P l l') : Without Q l l' := by
  induction hw with
  | nil => exact .nil
  | keep a _ ih => exact .keep a ih
  | drop a ha _ ih => exact .drop a (h a ha) ih

theorem Without.all {l : List α} (h : ∀ a ∈ l, P a) : Without P l [] := by
  induction l with
  | nil => exact .nil
  | cons a l ih => exact .drop a (h a (by simp)) (ih fun x hx => h x (by simp [hx]))
end

/-- A dependency, as object of both programs. -/
inductive Cst (D W E S : Type) where
  | const (v : Val D) (u : UFn D W E S) (cache : Cache D)
  | val (v : Val D)
  | fn (u : UFn D W E S) (cache : Cache D)
  | lzy (u : UFn D W E S) (cache : Cache D) (ds : List (Cst D W E S))

mutual
/-- The object in the original program. -/
def Cst.src [CxxData D] : Cst D W E S → Obj D W E S
  | .const _ u c => .core (.wrapDep u) c [.lazyValue (.data CxxData.zero) true]
  | .val v => .lazyValue v false
  | .fn u c => .core (.wrapDep u) c [.lazyValue (.data CxxData.zero) true]
  | .lzy u c ds => .unregularized (.unwrapped (.core (.regularized u) c (Cst.srcL ds)))
/-- All of them. -/
def Cst.srcL [CxxData D] : List (Cst D W E S) → List (Obj D W E S)
  | [] => []
  | t :: ts => t.src :: Cst.srcL ts
end

mutual
/-- The object in the program with values. -/
def Cst.tgt [CxxData D] : Cst D W E S → Obj D W E S
  | .const v _ _ => .lazyValue v false
  | .val v => .lazyValue v false
  | .fn u c => .core (.wrapDep u) c [.lazyValue (.data CxxData.zero) true]
  | .lzy u c ds => .unregularized (.unwrapped (.core (.regularized u) c (Cst.tgtL ds)))
/-- All of them. -/
def Cst.tgtL [CxxData D] : List (Cst D W E S) → List (Obj D W E S)
  | [] => []
  | t :: ts => t.tgt :: Cst.tgtL ts
end

/-- The function has been called. -/
def Cst.settled : Cst D W E S → Bool
  | .const _ _ c => c.engaged
  | _ => true

mutual
/-- Caches of the functions hold nothing or the value; a lazy function with a value has asked for its values. -/
def Cst.Ok (κ : Constants D W E S) : Cst D W E S → Prop
  | .const v u c => κ u.toFnCode = some v ∧ (c = Cache.empty v.retTy ∨ c = (Cache.empty v.retTy).assign v)
  | .val _ => True
  | .fn _ _ => True
  | .lzy _ c ds => Cst.OkL κ ds ∧ (c.engaged = true → ds.all Cst.settled = true)
/-- All of them. -/
def Cst.OkL (κ : Constants D W E S) : List (Cst D W E S) → Prop
  | [] => True
  | t :: ts => t.Ok κ ∧ Cst.OkL κ ts
end

/-- The first environment has seen more calls and comparisons, all of them redundant. -/
def Trim (κ : Constants D W E S) (e e' : Env D W S) : Prop := e'.w = e.w ∧ Without κ.Redundant e.log e'.log

theorem Fun.call_trim (g : Glue) (κ : Constants D W E S) (f : Fun D W E S) (vs : List (Val D)) (e e' : Env D W S) (h : Trim κ e e') :
    ∃ o f' e1 e1', f.call g vs e = (o, f', e1) ∧ f.call g vs e' = (o, f', e1') ∧ Trim κ e1 e1' := by
  obtain ⟨w, l⟩ := e
  obtain ⟨w', l'⟩ := e'
  obtain ⟨hw, hl⟩ := h
  simp only at hw hl
  subst hw
  cases f with
  | regularized u =>
    simp only [Fun.call, UFn.invoke]
    rcases hr : u.run u.st vs w' with ⟨e | v, s, w⟩ <;>
      exact ⟨_, _, _, _, rfl, rfl, rfl, hl.append (.refl _)⟩
  | wrapDep u =>
    simp only [Fun.call, UFn.invoke]
    rcases hr : u.run u.st [] w' with ⟨e | v, s, w⟩ <;>
      exact ⟨_, _, _, _, rfl, rfl, rfl, hl.append (.refl _)⟩

variable [CxxData D]

theorem coreTail_trim (g : Glue) (κ : Constants D W E S) (f : Fun D W E S) (c : Cache D) (rs rs' : List (LazyRes D))
    (hr : readValues rs' = readValues rs) (hc : c.engaged = true → rs' = rs) (e e' : Env D W S) (h : Trim κ e e') :
    ∃ o f' c' e1 e1', coreTail g f c rs e = (o, f', c', e1) ∧ coreTail g f c rs' e' = (o, f', c', e1') ∧ Trim κ e1 e1' := by
  have hch : (!c.engaged || any LazyRes.isChanged rs') = (!c.engaged || any LazyRes.isChanged rs) := by
    cases he : c.engaged with
    | false => rfl
    | true => rw [hc he]
  simp only [coreTail, hch, hr]
  cases !c.engaged || any LazyRes.isChanged rs with
  | false =>
    simp only [Bool.false_eq_true, if_false]
    cases c.deref <;> exact ⟨_, _, _, _, _, rfl, rfl, h⟩
  | true =>
    simp only [if_true]
    cases readValues rs with
    | none => exact ⟨_, _, _, _, _, rfl, rfl, h⟩
    | some vs =>
      obtain ⟨o, f', e1, e1', h1, h2, h3⟩ := Fun.call_trim g κ f vs e e' h
      simp only [h1, h2]
      cases o with
      | ok v =>
        simp only
        cases (c.assign v).deref with
        | none => exact ⟨_, _, _, _, _, rfl, rfl, h3⟩
        | some x => exact ⟨_, _, _, _, _, rfl, rfl, h3.1, h3.2.append (.refl _)⟩
      | _ => exact ⟨_, _, _, _, _, rfl, rfl, h3⟩

theorem Cst.srcL_eq (ts : List (Cst D W E S)) : Cst.srcL ts = ts.map Cst.src := by
  induction ts with
  | nil => simp [Cst.srcL]
  | cons t ts ih => simp [Cst.srcL, ih]

theorem Cst.tgtL_eq (ts : List (Cst D W E S)) : Cst.tgtL ts = ts.map Cst.tgt := by
  induction ts with
  | nil => simp [Cst.tgtL]
  | cons t ts ih => simp [Cst.tgtL, ih]

omit [CxxData D] in
theorem Cst.OkL_iff (κ : Constants D W E S) (ts : List (Cst D W E S)) : Cst.OkL κ ts ↔ ∀ t ∈ ts, t.Ok κ := by
  induction ts with
  | nil => simp [Cst.OkL]
  | cons t ts ih => simp [Cst.OkL, ih]

theorem zeroDep (g : Glue) (hval : g.resultByRef = false) (e : Env D W S) : evalDeps (E := E) g [.lazyValue (.data CxxData.zero) true] e =
    (.ok [⟨.data CxxData.zero, true, true⟩], [.lazyValue (.data CxxData.zero) true], e) := by
  simp [evalDeps, evalN, Out.map, hval]

/-- A function that always returns the same, and the value. -/
theorem cst_sim (g : Glue) (hval : g.resultByRef = false) (κ : Constants D W E S) (hκ : κ.Right) (v : Val D) (u : UFn D W E S) (c : Cache D)
    (hok : (Cst.const v u c).Ok κ) (env env' : Env D W S) (he : Trim κ env env') :
    ∃ u' c' b e1, evalN g (.core (.wrapDep u) c [.lazyValue (.data CxxData.zero) true]) env =
        (.ok ⟨v, b, true⟩, .core (.wrapDep u') c' [.lazyValue (.data CxxData.zero) true], e1) ∧ Trim κ e1 env' ∧ (Cst.const v u' c').Ok κ ∧
      (c.engaged = true → b = false) ∧ (c.engaged = true → c'.engaged = true) ∧ (g.bindFrontCopies = false → c'.engaged = true) := by
  obtain ⟨hu, hc⟩ := hok
  obtain ⟨y1, y2, y3⟩ := hκ _ _ hu
  obtain ⟨s', hs'⟩ := y3 u.st env.w
  have hcall : Fun.call g (.wrapDep u) [.data CxxData.zero] env =
      (.ok (u.ret.regularize v), .wrapDep (keep g.wrapParamByValue u { u with st := s' }), ⟨env.w, env.log ++ [.call .dep u.id [] u.st s']⟩) := by
    simp [Fun.call, UFn.invoke, hs']
  have hreg : u.ret.regularize v = v := by rw [y1]; cases v <;> rfl
  have hfit : c.Fits u.ret := by
    rw [y1]
    rcases hc with rfl | rfl
    · exact Cache.empty_fits _
    · cases v <;> simp [Val.retTy, Cache.empty, Cache.assign, Cache.Fits]
  have hread : readValues [(⟨.data CxxData.zero, true, true⟩ : LazyRes D)] = some [.data CxxData.zero] := by
    rw [readValues_live]
    · rfl
    · rfl
    · intro r hr
      cases hr
      rfl
  have hany : (!c.engaged || any LazyRes.isChanged [(⟨.data CxxData.zero, true, true⟩ : LazyRes D)]) = true := by
    rw [any_eq]
    simp
  have hkf : ∀ (b : Bool) (x y : UFn D W E S), keep b (Fun.wrapDep x) (.wrapDep y) = .wrapDep (keep b x y) := by
    intro b x y; cases b <;> rfl
  have hlive : g.coreLive c = true := by cases c <;> simp [Glue.coreLive, hval]
  rw [evalN_core_ok g _ _ _ _ (zeroDep g hval env), coreTail_run g _ _ _ _ env _ _ _ v hany hread hcall hfit, hreg, hlive]
  simp only [keep_self, hkf]
  have hass : c.assign v = (Cache.empty v.retTy).assign v := by
    rcases hc with rfl | rfl
    · rfl
    · cases v <;> rfl
  have hen : ((Cache.empty v.retTy : Cache D).assign v).engaged = true := by cases v <;> rfl
  refine ⟨_, _, _, _, rfl, ⟨he.1, ?_⟩, ⟨?_, ?_⟩, ?_, ?_, ?_⟩
  · have := (he.2.append (.all (l := [.call .dep u.id [] u.st s']) (by
      intro a ha
      rw [List.mem_singleton.mp ha]
      exact ⟨_, v, hu, .inl ⟨_, _, rfl⟩⟩))).append (b := cmpEvents c v) (.all (by
      intro a ha
      rcases hc with rfl | rfl
      · cases v <;> simp [Val.retTy, Cache.empty, cmpEvents] at ha
      · cases v <;> simp [Val.retTy, Cache.empty, cmpEvents, Cache.assign] at ha
        all_goals exact ⟨_, _, hu, .inr ha⟩))
    simpa using this
  · rw [← hu]
    cases g.coreParamsByValue <;> cases g.wrapParamByValue <;> rfl
  · rw [hass]
    exact keep_ind (P := fun c => c = Cache.empty v.retTy ∨ c = (Cache.empty v.retTy).assign v) _ hc (.inr rfl)
  · intro h
    rcases hc with rfl | rfl
    · exfalso
      revert h
      cases v <;> simp [Cache.empty, Cache.engaged, OptRV.default, OptRV.toBool, Val.retTy]
    · cases v with
      | rvoid => rfl
      | _ => simpa [Val.retTy, Cache.empty, Cache.assign, Cache.ne] using y2
  · intro h
    rw [hass]
    exact keep_ind (P := fun c : Cache D => c.engaged = true) _ h hen
  · intro h
    rw [h, keep_false, hass]
    exact hen

/-- A lazy function, given its dependencies. -/
theorem cstCore_sim (g : Glue) (hg : g.AllOrNothing) (κ : Constants D W E S) (u : UFn D W E S) (c : Cache D) (ds ds' : List (Cst D W E S))
    (hok : (Cst.lzy u c ds).Ok κ) (env env' e1 e1' : Env D W S) (o o' : Out E (List (LazyRes D)))
    (h1 : evalDeps g (Cst.srcL ds) env = (o, Cst.srcL ds', e1)) (h2 : evalDeps g (Cst.tgtL ds) env' = (o', Cst.tgtL ds', e1')) (he : Trim κ e1 e1')
    (hds : Cst.OkL κ ds') (hr : ResRelL (ds.all Cst.settled) o o') (hm : ds.all Cst.settled = true → ds'.all Cst.settled = true)
    (hs : g.bindFrontCopies = false → o.isOk = true → ds'.all Cst.settled = true) :
    ∃ u' c' ds'' o e e', evalN g (.core (.regularized u) c (Cst.srcL ds)) env = (o, .core (.regularized u') c' (Cst.srcL ds''), e) ∧
      evalN g (.core (.regularized u) c (Cst.tgtL ds)) env' = (o, .core (.regularized u') c' (Cst.tgtL ds''), e') ∧ Trim κ e e' ∧
      (Cst.lzy u' c' ds'').Ok κ := by
  obtain ⟨hdso, hset⟩ := hok
  have hkeep : ∀ b, keep b (Cst.srcL ds) (Cst.srcL ds') = Cst.srcL (keep b ds ds') ∧ keep b (Cst.tgtL ds) (Cst.tgtL ds') = Cst.tgtL (keep b ds ds') := by
    intro b; cases b <;> exact ⟨rfl, rfl⟩
  have hOkK : ∀ b, Cst.OkL κ (keep b ds ds') := fun b => keep_ind (P := Cst.OkL κ) b hdso hds
  have hmK : ∀ b, ds.all Cst.settled = true → (keep b ds ds').all Cst.settled = true := by
    intro b h; cases b
    · exact hm h
    · exact h
  have hfail : ∀ x : Out E (List (LazyRes D)), x.isOk = false → o = x → o' = x →
      ∃ u' c' ds'' o e e', evalN g (.core (.regularized u) c (Cst.srcL ds)) env = (o, .core (.regularized u') c' (Cst.srcL ds''), e) ∧
      evalN g (.core (.regularized u) c (Cst.tgtL ds)) env' = (o, .core (.regularized u') c' (Cst.tgtL ds''), e') ∧ Trim κ e e' ∧
      (Cst.lzy u' c' ds'').Ok κ := by
    intro x hx h0 h0'
    rw [h0] at h1
    rw [h0'] at h2
    refine ⟨u, c, keep g.coreParamsByValue ds ds', x.map (fun _ => ⟨.rvoid, false, false⟩), e1, e1', ?_, ?_, he, hOkK _, fun h => hmK _ (hset h)⟩
    · rw [evalN_core_fail g _ _ _ _ h1 hx, (hkeep _).1]
    · rw [evalN_core_fail g _ _ _ _ h2 hx, (hkeep _).2]
  cases o with
  | ok rs =>
    obtain ⟨rs', rfl, hv, hse⟩ := hr
    obtain ⟨o, f', c', e2, e2', t1, t2, t3⟩ := coreTail_trim g κ (.regularized u) c rs rs' (readValues_same hv) (fun h => hse (hset h)) e1 e1' he
    obtain ⟨u', hu', hcode⟩ := coreTail_regularized g u c rs e1
    rw [t1] at hu'
    simp only at hu'
    subst hu'
    refine ⟨keep g.coreParamsByValue u u', keep g.bindFrontCopies c c', keep g.coreParamsByValue ds ds', o, e2, e2', ?_, ?_, t3, hOkK _, ?_⟩
    · rw [evalN_core_ok g _ _ _ _ h1, t1]
      simp only [(hkeep _).1]
      cases g.coreParamsByValue <;> rfl
    · rw [evalN_core_ok g _ _ _ _ h2, t2]
      simp only [(hkeep _).2]
      cases g.coreParamsByValue <;> rfl
    · intro h
      rcases hg with hb | hr
      · rw [hb, keep_true] at h
        exact hmK _ (hset h)
      · rw [hr.2.1, keep_false]
        exact hs hr.1 rfl
  | thrown x => exact hfail _ rfl rfl hr
  | ub => exact hfail _ rfl rfl hr
  | illFormed => exact hfail _ rfl rfl hr

mutual
/-- One dependency. -/
theorem cstOne_sim (g : Glue) (hg : g.AllOrNothing) (hval : g.resultByRef = false) (κ : Constants D W E S) (hκ : κ.Right) (t : Cst D W E S) (hok : t.Ok κ)
    (env env' : Env D W S) (he : Trim κ env env') :
    ∃ (t' : Cst D W E S) (o o' : Out E (LazyRes D)) (e e' : Env D W S), evalN g t.src env = (o, t'.src, e) ∧ evalN g t.tgt env' = (o', t'.tgt, e') ∧ Trim κ e e' ∧
      t'.Ok κ ∧ ResRel t.settled o o' ∧ (t.settled = true → t'.settled = true) ∧ (g.bindFrontCopies = false → t'.settled = true) := by
  match t with
  | .const v u c =>
    obtain ⟨u', c', b, e1, h1, h2, h3, h4, h5, h6⟩ := cst_sim g hval κ hκ v u c hok env env' he
    exact ⟨.const v u' c', .ok ⟨v, b, true⟩, .ok ⟨v, false, true⟩, e1, env', by simpa only [Cst.src] using h1, by simp [Cst.tgt, evalN, hval], h2, h3, ⟨false, rfl, fun h => (h4 h).symm⟩,
      h5, h6⟩
  | .val v => exact ⟨.val v, .ok ⟨v, false, true⟩, .ok ⟨v, false, true⟩, env, env', by simp [Cst.src, evalN, hval], by simp [Cst.tgt, evalN, hval], he, trivial,
      ⟨_, rfl, fun _ => rfl⟩, fun _ => rfl, fun _ => rfl⟩
  | .fn u c =>
    obtain ⟨o, f', c', e2, e2', t1, t2, t3⟩ := coreTail_trim g κ (.wrapDep u) c [⟨.data CxxData.zero, true, true⟩] _ rfl (fun _ => rfl) env env' he
    obtain ⟨u', hu', hcode⟩ := coreTail_wrapDep g u c [⟨.data CxxData.zero, true, true⟩] env
    rw [t1] at hu'
    simp only at hu'
    subst hu'
    refine ⟨.fn (keep g.coreParamsByValue u u') (keep g.bindFrontCopies c c'), o, o, e2, e2', ?_, ?_, t3, trivial, ?_, fun _ => rfl, fun _ => rfl⟩
    · simp only [Cst.src]
      rw [evalN_core_ok g _ _ _ _ (zeroDep g hval env), t1]
      cases g.coreParamsByValue <;> rfl
    · simp only [Cst.tgt]
      rw [evalN_core_ok g _ _ _ _ (zeroDep g hval env'), t2]
      cases g.coreParamsByValue <;> rfl
    · cases o with
      | ok r => exact ⟨_, rfl, fun _ => rfl⟩
      | _ => rfl
  | .lzy u c ds =>
    obtain ⟨ds', o, o', e1, e1', h1, h2, h3, h4, h5, h6, h7⟩ := cstAll_sim g hg hval κ hκ ds hok.1 env env' he
    obtain ⟨u', c', ds'', o2, e, e', k1, k2, k3, k4⟩ := cstCore_sim g hg κ u c ds ds' hok env env' e1 e1' o o' h1 h2 h3 h4 h5 h6 h7
    refine ⟨keep (g.facadeParamByValue || g.unwrapParamByValue) (.lzy u c ds) (.lzy u' c' ds''),
      o2.map (LazyRes.through (g.resultByRef && (g.facadeParamByValue || g.unwrapParamByValue))),
      o2.map (LazyRes.through (g.resultByRef && (g.facadeParamByValue || g.unwrapParamByValue))), e, e', ?_, ?_, k3,
      keep_ind (P := Cst.Ok κ) _ hok k4, ?_, ?_, ?_⟩
    · simp only [Cst.src]
      rw [evalN_facade, k1]
      cases (g.facadeParamByValue || g.unwrapParamByValue) <;> simp [Cst.src]
    · simp only [Cst.tgt]
      rw [evalN_facade, k2]
      cases (g.facadeParamByValue || g.unwrapParamByValue) <;> simp only [keep_true, keep_false, Cst.tgt] <;> rfl
    · cases o2 with
      | ok r => exact ⟨_, rfl, fun _ => rfl⟩
      | _ => rfl
    · intro _; cases (g.facadeParamByValue || g.unwrapParamByValue) <;> rfl
    · intro _; cases (g.facadeParamByValue || g.unwrapParamByValue) <;> rfl
/-- All dependencies. -/
theorem cstAll_sim (g : Glue) (hg : g.AllOrNothing) (hval : g.resultByRef = false) (κ : Constants D W E S) (hκ : κ.Right) (ts : List (Cst D W E S)) (hok : Cst.OkL κ ts)
    (env env' : Env D W S) (he : Trim κ env env') :
    ∃ ts' o o' e e', evalDeps g (Cst.srcL ts) env = (o, Cst.srcL ts', e) ∧ evalDeps g (Cst.tgtL ts) env' = (o', Cst.tgtL ts', e') ∧ Trim κ e e' ∧ Cst.OkL κ ts' ∧
      ResRelL (ts.all Cst.settled) o o' ∧ (ts.all Cst.settled = true → ts'.all Cst.settled = true) ∧
      (g.bindFrontCopies = false → o.isOk = true → ts'.all Cst.settled = true) := by
  match ts with
  | [] => exact ⟨[], .ok [], .ok [], env, env', by simp [Cst.srcL, evalDeps], by simp [Cst.tgtL, evalDeps], he, trivial, ⟨[], rfl, rfl, fun _ => rfl⟩, fun h => h, fun _ _ => rfl⟩
  | t :: ts =>
    obtain ⟨t', o, o', e1, e1', h1, h2, h3, h4, h5, h6, h7⟩ := cstOne_sim g hg hval κ hκ t hok.1 env env' he
    have hfail : ∀ x : Out E (LazyRes D), x.isOk = false → o = x → o' = x →
        ∃ ts' o o' e e', evalDeps g (Cst.srcL (t :: ts)) env = (o, Cst.srcL ts', e) ∧ evalDeps g (Cst.tgtL (t :: ts)) env' = (o', Cst.tgtL ts', e') ∧ Trim κ e e' ∧
          Cst.OkL κ ts' ∧ ResRelL ((t :: ts).all Cst.settled) o o' ∧ ((t :: ts).all Cst.settled = true → ts'.all Cst.settled = true) ∧
          (g.bindFrontCopies = false → o.isOk = true → ts'.all Cst.settled = true) := by
      intro x hx h0 h0'
      rw [h0] at h1
      rw [h0'] at h2
      refine ⟨t' :: ts, x.map (fun _ => []), x.map (fun _ => []), e1, e1', ?_, ?_, h3, ⟨h4, hok.2⟩, ?_, ?_, ?_⟩
      · cases x with
        | ok _ => simp [Out.isOk] at hx
        | _ => simp only [Cst.srcL, evalDeps, h1]
      · cases x with
        | ok _ => simp [Out.isOk] at hx
        | _ => simp only [Cst.tgtL, evalDeps, h2]
      · cases x with
        | ok _ => simp [Out.isOk] at hx
        | _ => rfl
      · intro h
        simp only [List.all_cons, Bool.and_eq_true] at h ⊢
        exact ⟨h6 h.1, h.2⟩
      · intro _ ho
        cases x <;> simp_all [Out.isOk, Out.map]
    cases o with
    | ok r =>
      obtain ⟨b, rfl, hb⟩ := h5
      obtain ⟨ts', o, o', e2, e2', k1, k2, k3, k4, k5, k6, k7⟩ := cstAll_sim g hg hval κ hκ ts hok.2 e1 e1' h3
      refine ⟨t' :: ts', o.map (r :: ·), o'.map ({ r with isChanged := b } :: ·), e2, e2', ?_, ?_, k3, ⟨h4, k4⟩, ?_, ?_, ?_⟩
      · simp only [Cst.srcL, evalDeps, h1, k1]
      · simp only [Cst.tgtL, evalDeps, h2, k2]
      · cases o with
        | ok rs =>
          obtain ⟨rs', rfl, q1, q2⟩ := k5
          refine ⟨_, rfl, by simp [q1], ?_⟩
          intro h
          simp only [List.all_cons, Bool.and_eq_true] at h
          rw [q2 h.2, hb h.1]
        | _ => simp only [ResRelL] at k5; subst k5; rfl
      · intro h
        simp only [List.all_cons, Bool.and_eq_true] at h ⊢
        exact ⟨h6 h.1, k6 h.2⟩
      · intro hr ho
        simp only [List.all_cons, Bool.and_eq_true]
        refine ⟨h7 hr, k7 hr ?_⟩
        cases o <;> simp_all [Out.map, Out.isOk]
    | thrown x => exact hfail _ rfl rfl h5
    | ub => exact hfail _ rfl rfl h5
    | illFormed => exact hfail _ rfl rfl h5
end

/-- Is it an object a variable can hold? -/
def Cst.isLzy : Cst D W E S → Prop
  | .lzy _ _ _ => True
  | _ => False

theorem ensureLazy_cst (t : Cst D W E S) (h : t.isLzy) : ensureLazy (.lazyObj t.src) = some t.src ∧ ensureLazy (.lazyObj t.tgt) = some t.tgt := by
  cases t with
  | lzy u c ds => simp only [Cst.src, Cst.tgt]; exact ⟨rfl, rfl⟩
  | _ => exact h.elim

/-- Dependencies of one call of `lazy` in both programs: both compile, or neither. -/
theorem cstDeps_sim (κ : Constants D W E S) (hκ : κ.Right) (ts : List (Cst D W E S)) (hts : ∀ t ∈ ts, t.Ok κ ∧ t.isLzy) : ∀ as : List (ArgRef D W E S),
    ((resolveAll (ts.map Cst.src) as).bind ensureAll = none ∧ (resolveAll (ts.map Cst.tgt) (as.map (·.settle κ))).bind ensureAll = none) ∨
    ∃ us, (resolveAll (ts.map Cst.src) as).bind ensureAll = some (Cst.srcL us) ∧
      (resolveAll (ts.map Cst.tgt) (as.map (·.settle κ))).bind ensureAll = some (Cst.tgtL us) ∧ Cst.OkL κ us
  | [] => .inr ⟨[], by simp [resolveAll, ensureAll, Cst.srcL], by simp [resolveAll, ensureAll, Cst.tgtL], trivial⟩
  | a :: as => by
    have hbind : ∀ (vars : List (Obj D W E S)) (a : ArgRef D W E S) (as : List (ArgRef D W E S)), (resolveAll vars (a :: as)).bind ensureAll =
        match (a.resolve vars).bind ensureLazy, (resolveAll vars as).bind ensureAll with
        | some o, some os => some (o :: os)
        | _, _ => none := by
      intro vars a as
      simp only [resolveAll]
      cases a.resolve vars with
      | none => rfl
      | some d =>
        cases resolveAll vars as with
        | none => simp
        | some ds =>
          simp only [Option.bind_some, ensureAll]
          cases ensureLazy d <;> cases ensureAll ds <;> rfl
    have hhead : ((a.resolve (ts.map Cst.src)).bind ensureLazy = none ∧ ((a.settle κ).resolve (ts.map Cst.tgt)).bind ensureLazy = none) ∨
        ∃ t : Cst D W E S, (a.resolve (ts.map Cst.src)).bind ensureLazy = some t.src ∧ ((a.settle κ).resolve (ts.map Cst.tgt)).bind ensureLazy = some t.tgt ∧ t.Ok κ := by
      cases a with
      | value v => exact .inr ⟨.val v, by simp only [Cst.src]; rfl, by simp only [Cst.tgt]; rfl, trivial⟩
      | function u =>
        have hens : ensureLazy (.function u : DepArg D W E S) = if u.ret = .void then none else some (detailLazy (.wrapDep u) [.lazyValue (.data CxxData.zero) true]) := rfl
        cases hk : κ u.toFnCode with
        | none =>
          simp only [ArgRef.settle, hk, ArgRef.resolve, Option.bind_some, hens]
          by_cases hv : u.ret = .void
          · exact .inl (by simp [hv])
          · exact .inr ⟨.fn u (Cache.empty u.ret), by simp [hv, Cst.src, detailLazy, Fun.ret], by simp [hv, Cst.tgt, detailLazy, Fun.ret], trivial⟩
        | some v =>
          have hret := (hκ _ _ hk).1
          have hv : u.ret ≠ .void := by rw [hret]; cases v <;> simp [Val.retTy]
          simp only [ArgRef.settle, hk, ArgRef.resolve, Option.bind_some, hens]
          exact .inr ⟨.const v u (Cache.empty u.ret), by simp [hv, Cst.src, detailLazy, Fun.ret], by simp only [Cst.tgt]; rfl, hk, .inl (by rw [hret])⟩
      | var i =>
        simp only [ArgRef.settle, ArgRef.resolve, List.getElem?_map]
        rcases hi : ts[i]? with _ | t
        · exact .inl ⟨rfl, rfl⟩
        · obtain ⟨hok, hz⟩ := hts t (List.mem_of_getElem? hi)
          exact .inr ⟨t, (ensureLazy_cst t hz).1, (ensureLazy_cst t hz).2, hok⟩
    have htail := cstDeps_sim κ hκ ts hts as
    rw [List.map_cons, hbind, hbind]
    rcases hhead with ⟨h1, h2⟩ | ⟨t, h1, h2, h3⟩
    · exact .inl ⟨by simp [h1], by simp [h2]⟩
    · rcases htail with ⟨k1, k2⟩ | ⟨us, k1, k2, k3⟩
      · exact .inl ⟨by simp [k1], by simp [k2]⟩
      · exact .inr ⟨t :: us, by simp [h1, k1, Cst.srcL], by simp [h2, k2, Cst.tgtL], h3, k3⟩

/-- Both programs, from any related states. -/
theorem settle_sim (g : Glue) (hg : g.AllOrNothing) (hval : g.resultByRef = false) (κ : Constants D W E S) (hκ : κ.Right) : ∀ (ops : List (Op D W E S))
    (ts : List (Cst D W E S)) (st st' : State D W E S), st.vars = ts.map Cst.src → st'.vars = ts.map Cst.tgt → (∀ t ∈ ts, t.Ok κ ∧ t.isLzy) → Trim κ st.env st'.env →
    let a := run g st ops
    let b := run g st' (ops.map (·.settle κ))
    b.1 = a.1 ∧ Trim κ a.2.env b.2.env
  | [], ts, st, st', hv, hv', hts, he => ⟨rfl, he⟩
  | op :: ops, ts, st, st', hv, hv', hts, he => by
    obtain ⟨ts', h1, h2, h3, h4, h5⟩ : ∃ ts' : List (Cst D W E S), (step g st' (op.settle κ)).1 = (step g st op).1 ∧ (step g st op).2.vars = ts'.map Cst.src ∧
        (step g st' (op.settle κ)).2.vars = ts'.map Cst.tgt ∧ (∀ t ∈ ts', t.Ok κ ∧ t.isLzy) ∧ Trim κ (step g st op).2.env (step g st' (op.settle κ)).2.env := by
      have hset : ∀ (i : Nat) (t : Cst D W E S), t.Ok κ ∧ t.isLzy → ∀ x ∈ ts.set i t, x.Ok κ ∧ x.isLzy := by
        intro i t ht x hx
        rcases List.mem_or_eq_of_mem_set hx with hx | rfl
        · exact hts x hx
        · exact ht
      have hlzy : ∀ t ∈ ts, ∃ u c ds, t = .lzy u c ds := by
        intro t ht
        obtain ⟨_, hz⟩ := hts t ht
        cases t with
        | lzy u c ds => exact ⟨u, c, ds, rfl⟩
        | _ => exact hz.elim
      cases op with
      | mk f deps =>
        have hp : ∀ (vars : List (Obj D W E S)) (as : List (ArgRef D W E S)), (resolveAll vars as).bind (pigroLazy f) =
            ((resolveAll vars as).bind ensureAll).map fun os => .unregularized (.unwrapped (.core (.regularized f) (Cache.empty f.ret) os)) := by
          intro vars as
          cases resolveAll vars as with
          | none => rfl
          | some ds =>
            simp only [Option.bind_some, pigroLazy]
            cases ensureAll ds <;> simp [detailLazy, Fun.ret]
        simp only [Op.settle, step, hp, hv, hv']
        rcases cstDeps_sim κ hκ ts hts deps with ⟨k1, k2⟩ | ⟨us, k1, k2, k3⟩
        · simp only [k1, k2, Option.map_none]
          exact ⟨ts, trivial, hv, hv', hts, he⟩
        · simp only [k1, k2, Option.map_some]
          refine ⟨ts ++ [.lzy f (Cache.empty f.ret) us], trivial, by simp [Cst.src], by simp [Cst.tgt], ?_, he⟩
          intro t ht
          rcases List.mem_append.mp ht with ht | ht
          · exact hts t ht
          · rw [List.mem_singleton.mp ht]
            have hne : (Cache.empty f.ret : Cache D).engaged = false := by cases f.ret <;> rfl
            exact ⟨⟨k3, by simp [hne]⟩, trivial⟩
      | copy i =>
        simp only [Op.settle, step, hv, hv', List.getElem?_map]
        rcases hi : ts[i]? with _ | t
        · exact ⟨ts, rfl, hv, hv', hts, he⟩
        · simp only [Option.map_some]
          refine ⟨ts ++ [t], trivial, by simp, by simp, ?_, he⟩
          intro x hx
          rcases List.mem_append.mp hx with hx | hx
          · exact hts x hx
          · rw [List.mem_singleton.mp hx]; exact hts t (List.mem_of_getElem? hi)
      | call i =>
        rcases hi : ts[i]? with _ | t
        · have e1 : st.vars[i]? = none := by simp only [hv, List.getElem?_map, hi, Option.map_none]
          have e2 : st'.vars[i]? = none := by simp only [hv', List.getElem?_map, hi, Option.map_none]
          simp only [Op.settle, step, e1, e2]
          exact ⟨ts, trivial, hv, hv', hts, he⟩
        · obtain ⟨u, c, ds, rfl⟩ := hlzy t (List.mem_of_getElem? hi)
          have hok := (hts _ (List.mem_of_getElem? hi)).1
          have e1 : st.vars[i]? = some (Cst.lzy u c ds).src := by simp only [hv, List.getElem?_map, hi, Option.map_some]
          have e2 : st'.vars[i]? = some (Cst.lzy u c ds).tgt := by simp only [hv', List.getElem?_map, hi, Option.map_some]
          obtain ⟨ds', o, o', e1', e1'', q1, q2, q3, q4, q5, q6, q7⟩ := cstAll_sim g hg hval κ hκ ds hok.1 st.env st'.env he
          obtain ⟨u', c', ds'', o2, e, e', p1, p2, p3, p4⟩ := cstCore_sim g hg κ u c ds ds' hok _ _ e1' e1'' o o' q1 q2 q3 q4 q5 q6 q7
          have hrv : (Obj.core (.regularized u) c (Cst.srcL ds)).valueIsRV = (Obj.core (.regularized u) c (Cst.tgtL ds)).valueIsRV := by
            cases c <;> rfl
          have hc1 : ∃ r, call0 g (Cst.lzy u c ds).src st.env = (r, (keep (g.facadeParamByValue || g.unwrapParamByValue) (Cst.lzy u c ds) (Cst.lzy u' c' ds'')).src, e) ∧
              call0 g (Cst.lzy u c ds).tgt st'.env = (r, (keep (g.facadeParamByValue || g.unwrapParamByValue) (Cst.lzy u c ds) (Cst.lzy u' c' ds'')).tgt, e') := by
            simp only [Cst.src, Cst.tgt]
            rw [call0_facade, call0_facade, p1, p2, hrv]
            refine ⟨_, Prod.ext rfl (Prod.ext ?_ rfl), Prod.ext rfl (Prod.ext ?_ rfl)⟩
            · cases (g.facadeParamByValue || g.unwrapParamByValue) <;> simp [Cst.src]
            · cases (g.facadeParamByValue || g.unwrapParamByValue) <;> simp [Cst.tgt]
          obtain ⟨r, c1, c2⟩ := hc1
          have hs1 := step_call g st i _ e1
          have hs2 := step_call g st' i _ e2
          rw [c1] at hs1
          rw [c2] at hs2
          simp only [Op.settle, hs1, hs2]
          exact ⟨ts.set i (keep (g.facadeParamByValue || g.unwrapParamByValue) (Cst.lzy u c ds) (Cst.lzy u' c' ds'')), trivial, by simp [hv], by simp [hv'],
            hset i _ ⟨keep_ind (P := Cst.Ok κ) _ hok p4, keep_ind (P := Cst.isLzy) _ trivial trivial⟩, p3⟩
      | poll i =>
        rcases hi : ts[i]? with _ | t
        · have e1 : st.vars[i]? = none := by simp only [hv, List.getElem?_map, hi, Option.map_none]
          have e2 : st'.vars[i]? = none := by simp only [hv', List.getElem?_map, hi, Option.map_none]
          simp only [Op.settle, step, e1, e2]
          exact ⟨ts, trivial, hv, hv', hts, he⟩
        · obtain ⟨u, c, ds, rfl⟩ := hlzy t (List.mem_of_getElem? hi)
          have hok := (hts _ (List.mem_of_getElem? hi)).1
          have e1 : st.vars[i]? = some (Cst.lzy u c ds).src := by simp only [hv, List.getElem?_map, hi, Option.map_some]
          have e2 : st'.vars[i]? = some (Cst.lzy u c ds).tgt := by simp only [hv', List.getElem?_map, hi, Option.map_some]
          obtain ⟨ds', o, o', e1', e1'', q1, q2, q3, q4, q5, q6, q7⟩ := cstAll_sim g hg hval κ hκ ds hok.1 st.env st'.env he
          obtain ⟨u', c', ds'', o2, e, e', p1, p2, p3, p4⟩ := cstCore_sim g hg κ u c ds ds' hok _ _ e1' e1'' o o' q1 q2 q3 q4 q5 q6 q7
          have hc1 : ∃ r, evalN g (Cst.lzy u c ds).src st.env = (r, (keep (g.facadeParamByValue || g.unwrapParamByValue) (Cst.lzy u c ds) (Cst.lzy u' c' ds'')).src, e) ∧
              evalN g (Cst.lzy u c ds).tgt st'.env = (r, (keep (g.facadeParamByValue || g.unwrapParamByValue) (Cst.lzy u c ds) (Cst.lzy u' c' ds'')).tgt, e') := by
            simp only [Cst.src, Cst.tgt]
            rw [evalN_facade, evalN_facade, p1, p2]
            refine ⟨_, Prod.ext rfl (Prod.ext ?_ rfl), Prod.ext rfl (Prod.ext ?_ rfl)⟩
            · cases (g.facadeParamByValue || g.unwrapParamByValue) <;> simp [Cst.src]
            · cases (g.facadeParamByValue || g.unwrapParamByValue) <;> simp [Cst.tgt]
          obtain ⟨r, c1, c2⟩ := hc1
          have hs1 := step_poll g st i _ e1
          have hs2 := step_poll g st' i _ e2
          rw [c1] at hs1
          rw [c2] at hs2
          simp only [Op.settle, hs1, hs2]
          exact ⟨ts.set i (keep (g.facadeParamByValue || g.unwrapParamByValue) (Cst.lzy u c ds) (Cst.lzy u' c' ds'')), trivial, by simp [hv], by simp [hv'],
            hset i _ ⟨keep_ind (P := Cst.Ok κ) _ hok p4, keep_ind (P := Cst.isLzy) _ trivial trivial⟩, p3⟩
      | poke h => exact ⟨ts, rfl, hv, hv', hts, by simp only [Op.settle, step, he.1], he.2⟩
    have ih := settle_sim g hg hval κ hκ ops ts' _ _ h2 h3 h4 h5
    simp only [List.map_cons, run]
    exact ⟨by rw [h1, ih.1], ih.2⟩

end Pigro
