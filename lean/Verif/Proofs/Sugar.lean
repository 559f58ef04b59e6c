import Verif.Spec.Sugar
import Verif.Proofs.Fresh
import Verif.Proofs.LazyMore
import Verif.Proofs.HistoryFresh
/-!
# Proofs: programs without value dependencies
-/
namespace Pigro
variable {D W E S : Type}

/-- A dependency, as object of both programs. -/
inductive Sug (D W E S : Type) where
  | val (v : Val D) (u : UFn D W E S) (cache : Cache D)
  | fn (u : UFn D W E S) (cache : Cache D)
  | lzy (u : UFn D W E S) (cache : Cache D) (ds : List (Sug D W E S))

/-- The object for a value in the program without values. -/
def constObj (args : List (Val D)) (u : UFn D W E S) (c : Cache D) : Obj D W E S :=
  .unregularized (.unwrapped (.core (.regularized u) c (args.map (.lazyValue · false))))

mutual
/-- The object in the original program. -/
def Sug.src [CxxData D] : Sug D W E S → Obj D W E S
  | .val v _ _ => .lazyValue v false
  | .fn u c => .core (.wrapDep u) c [.lazyValue (.data CxxData.zero) true]
  | .lzy u c ds => .unregularized (.unwrapped (.core (.regularized u) c (Sug.srcL ds)))
/-- All of them. -/
def Sug.srcL [CxxData D] : List (Sug D W E S) → List (Obj D W E S)
  | [] => []
  | t :: ts => t.src :: Sug.srcL ts
end

mutual
/-- The object in the program without values. -/
def Sug.tgt [CxxData D] (ρ : Recipe D W E S) : Sug D W E S → Obj D W E S
  | .val v u c => constObj (ρ v).2 u c
  | .fn u c => .core (.wrapDep u) c [.lazyValue (.data CxxData.zero) true]
  | .lzy u c ds => .unregularized (.unwrapped (.core (.regularized u) c (Sug.tgtL ρ ds)))
/-- All of them. -/
def Sug.tgtL [CxxData D] (ρ : Recipe D W E S) : List (Sug D W E S) → List (Obj D W E S)
  | [] => []
  | t :: ts => t.tgt ρ :: Sug.tgtL ρ ts
end

/-- A value has been asked for. -/
def Sug.settled : Sug D W E S → Bool
  | .val _ _ c => c.engaged
  | _ => true

mutual
/-- Caches of values hold nothing or the value; a lazy function with a value has asked for its values. -/
def Sug.Ok (ρ : Recipe D W E S) (k : Nat) : Sug D W E S → Prop
  | .val v u c => u.toFnCode = (ρ v).1.toFnCode ∧ (c = Cache.empty v.retTy ∨ c = (Cache.empty v.retTy).assign v)
  | .fn _ _ => True
  | .lzy u c ds => u.id ≠ k ∧ Sug.OkL ρ k ds ∧ (c.engaged = true → ds.all Sug.settled = true)
/-- All of them. -/
def Sug.OkL (ρ : Recipe D W E S) (k : Nat) : List (Sug D W E S) → Prop
  | [] => True
  | t :: ts => t.Ok ρ k ∧ Sug.OkL ρ k ts
end

/-- Environments that differ in calls of functions with number `k` only. -/
def Agree (pre : List (Ev D S)) (k : Nat) (e e' : Env D W S) : Prop := e'.w = e.w ∧ pre ++ withoutConstants k e'.log = e.log

variable {pre : List (Ev D S)}

theorem without_append (k : Nat) (a b : List (Ev D S)) : withoutConstants k (a ++ b) = withoutConstants k a ++ withoutConstants k b := by
  simp [withoutConstants]

theorem without_cmp [CxxData D] (k : Nat) (c : Cache D) (v : Val D) : withoutConstants k (cmpEvents c v : List (Ev D S)) = cmpEvents c v := by
  cases c with
  | opt o => cases o <;> simp [cmpEvents, withoutConstants]
  | rv _ => simp [cmpEvents, withoutConstants]

/-- Functions with another number. -/
def Fun.Other (k : Nat) : Fun D W E S → Prop
  | .regularized u => u.id ≠ k
  | .wrapDep _ => True

theorem Fun.call_same (g : Glue) (k : Nat) (f : Fun D W E S) (hf : f.Other k) (vs : List (Val D)) (e e' : Env D W S) (h : Agree pre k e e') :
    ∃ o f' e1 e1', f.call g vs e = (o, f', e1) ∧ f.call g vs e' = (o, f', e1') ∧ Agree pre k e1 e1' := by
  obtain ⟨w, l⟩ := e
  obtain ⟨w', l'⟩ := e'
  obtain ⟨rfl, rfl⟩ := h
  cases f with
  | regularized u =>
    simp only [Fun.Other] at hf
    simp only [Fun.call, UFn.invoke]
    rcases hr : u.run u.st vs w' with ⟨e | v, s, w⟩ <;>
      exact ⟨_, _, _, _, rfl, rfl, rfl, by simp [withoutConstants, hf]⟩
  | wrapDep u =>
    simp only [Fun.call, UFn.invoke]
    rcases hr : u.run u.st [] w' with ⟨e | v, s, w⟩ <;>
      exact ⟨_, _, _, _, rfl, rfl, rfl, by simp [withoutConstants]⟩

theorem coreTail_same [CxxData D] (g : Glue) (k : Nat) (f : Fun D W E S) (hf : f.Other k) (c : Cache D) (rs rs' : List (LazyRes D))
    (hr : readValues rs' = readValues rs) (hc : c.engaged = true → rs' = rs) (e e' : Env D W S) (h : Agree pre k e e') :
    ∃ o f' c' e1 e1', coreTail g f c rs e = (o, f', c', e1) ∧ coreTail g f c rs' e' = (o, f', c', e1') ∧ Agree pre k e1 e1' := by
  have hch : (!c.engaged || any LazyRes.isChanged rs') = (!c.engaged || any LazyRes.isChanged rs) := by
    cases he : c.engaged with
    | false => rfl
    | true => rw [hc he]
  simp only [coreTail, hch, hr]
  cases !c.engaged || any LazyRes.isChanged rs with
  | false =>
    simp only [Bool.false_eq_true, if_false]
    cases c.deref <;> exact ⟨_, _, _, _, _, rfl, rfl, h⟩
  | true =>
    simp only [if_true]
    cases readValues rs with
    | none => exact ⟨_, _, _, _, _, rfl, rfl, h⟩
    | some vs =>
      obtain ⟨o, f', e1, e1', h1, h2, h3⟩ := Fun.call_same g k f hf vs e e' h
      simp only [h1, h2]
      cases o with
      | ok v =>
        simp only
        cases (c.assign v).deref with
        | none => exact ⟨_, _, _, _, _, rfl, rfl, h3⟩
        | some x => exact ⟨_, _, _, _, _, rfl, rfl, h3.1, by simp only [without_append, without_cmp, ← List.append_assoc, h3.2]⟩
      | _ => exact ⟨_, _, _, _, _, rfl, rfl, h3⟩

variable [CxxData D]

theorem Sug.srcL_eq (ts : List (Sug D W E S)) : Sug.srcL ts = ts.map Sug.src := by
  induction ts with
  | nil => simp [Sug.srcL]
  | cons t ts ih => simp [Sug.srcL, ih]

theorem Sug.tgtL_eq (ρ : Recipe D W E S) (ts : List (Sug D W E S)) : Sug.tgtL ρ ts = ts.map (Sug.tgt ρ) := by
  induction ts with
  | nil => simp [Sug.tgtL]
  | cons t ts ih => simp [Sug.tgtL, ih]

omit [CxxData D] in
theorem Sug.OkL_iff (ρ : Recipe D W E S) (k : Nat) (ts : List (Sug D W E S)) : Sug.OkL ρ k ts ↔ ∀ t ∈ ts, t.Ok ρ k := by
  induction ts with
  | nil => simp [Sug.OkL]
  | cons t ts ih => simp [Sug.OkL, ih]

/-- The result of a dependency in both programs: the same up to the flag, which differs only for a value asked for the first time. -/
def ResRel (settled : Bool) (o o' : Out E (LazyRes D)) : Prop :=
  match o with
  | .ok r => ∃ b, o' = .ok { r with isChanged := b } ∧ (settled = true → b = r.isChanged)
  | _ => o' = o

/-- The same for all dependencies. -/
def ResRelL (settled : Bool) (o o' : Out E (List (LazyRes D))) : Prop :=
  match o with
  | .ok rs => ∃ rs', o' = .ok rs' ∧ rs'.map (fun r => (r.value, r.live)) = rs.map (fun r => (r.value, r.live)) ∧ (settled = true → rs' = rs)
  | _ => o' = o

omit [CxxData D] in
theorem readValues_same {rs rs' : List (LazyRes D)} (h : rs'.map (fun r => (r.value, r.live)) = rs.map (fun r => (r.value, r.live))) :
    readValues rs' = readValues rs := by
  have h1 : rs'.map LazyRes.value = rs.map LazyRes.value := by
    have := congrArg (List.map Prod.fst) h
    simpa [Function.comp_def] using this
  have h2 : rs'.all (·.live) = rs.all (·.live) := by
    have := congrArg (fun l => l.all Prod.snd) h
    simpa [List.all_map, Function.comp_def] using this
  simp only [readValues, h2, transform_eq, h1]

theorem evalDeps_values (g : Glue) (args : List (Val D)) (env : Env D W S) :
    evalDeps (E := E) g (args.map (.lazyValue · false)) env =
      (.ok (args.map fun v => ⟨v, false, !(g.resultByRef && g.valueParamByValue)⟩), args.map (.lazyValue · false), env) := by
  induction args with
  | nil => simp [evalDeps]
  | cons a l ih => simp [evalDeps, evalN, ih, Out.map]

/-- A value and the lazy function made for it. -/
theorem const_sim (g : Glue) (hl : g.EquallyLive) (ρ : Recipe D W E S) (k : Nat) (hρ : ρ.Yields k) (hargs : g.resultByRef = true → ∀ v, (ρ v).2 = []) (v : Val D)
    (u : UFn D W E S) (c : Cache D) (hc : (Sug.val v u c).Ok ρ k) (env env' : Env D W S) (he : Agree pre k env env') :
    ∃ u' c' o' e1', evalN g (constObj (ρ v).2 u c) env' = (o', constObj (ρ v).2 u' c', e1') ∧ Agree pre k env e1' ∧ (Sug.val v u' c').Ok ρ k ∧
      ResRel c.engaged (.ok ⟨v, false, !(g.resultByRef && g.valueParamByValue)⟩) o' ∧ (c.engaged = true → c'.engaged = true) ∧ (g.Retains → c'.engaged = true) := by
  obtain ⟨hu, hc⟩ := hc
  obtain ⟨y1, y2, y3, y4⟩ := hρ v
  have hd := evalDeps_values (E := E) g (ρ v).2 env'
  obtain ⟨s', hs'⟩ := y4 u.st env'.w
  rw [← hu] at hs' y1 y2
  have hcall : Fun.call g (.regularized u) (ρ v).2 env' =
      (.ok (u.ret.regularize v), .regularized (keep g.regParamByValue u { u with st := s' }), ⟨env'.w, env'.log ++ [.call .fn k (ρ v).2 u.st s']⟩) := by
    simp [Fun.call, UFn.invoke, hs', y1]
  have hreg : u.ret.regularize v = v := by rw [y2]; cases v <;> rfl
  have hfit : (Cache.empty v.retTy : Cache D).Fits u.ret := by
    rw [y2]
    exact Cache.empty_fits _
  have hread : readValues ((ρ v).2.map fun v => (⟨v, false, !(g.resultByRef && g.valueParamByValue)⟩ : LazyRes D)) = some (ρ v).2 := by
    rw [readValues_live]
    · simp [Function.comp_def]
    · cases hb : g.resultByRef with
      | false => simp
      | true => simp [hargs hb v]
    · intro r hr
      match hargs' : (ρ v).2, hr with
      | [x], hr =>
        simp only [List.map_cons, List.map_nil, List.cons.injEq, and_true] at hr
        rw [← hr]
        cases x with
        | tup vs => exact absurd hargs' (y3 vs)
        | _ => rfl
  have hany : any LazyRes.isChanged ((ρ v).2.map fun v => (⟨v, false, !(g.resultByRef && g.valueParamByValue)⟩ : LazyRes D)) = false := by
    rw [any_eq]
    simp
  have hlog : Agree pre k env ⟨env'.w, env'.log ++ [.call .fn k (ρ v).2 u.st s']⟩ := ⟨he.1, by
    rw [without_append]
    have : withoutConstants k [(.call .fn k (ρ v).2 u.st s' : Ev D S)] = [] := by simp [withoutConstants]
    rw [this, List.append_nil]
    exact he.2⟩
  have hlive : ∀ c : Cache D, (g.coreLive c && !(g.resultByRef && (g.facadeParamByValue || g.unwrapParamByValue))) = !(g.resultByRef && g.valueParamByValue) := by
    intro c
    simp only [Glue.EquallyLive] at hl
    cases hb : g.resultByRef with
    | false => cases c <;> simp [Glue.coreLive, hb]
    | true =>
      obtain ⟨h1, h2⟩ := hl hb
      cases c with
      | rv _ => simp [Glue.coreLive, hb, h1]
      | opt _ =>
        simp only [Glue.coreLive, hb, h1]
        cases h3 : g.bindFrontCopies <;> simp [h3] at h2 ⊢
        rcases h2 with h2 | h2 <;> simp [h2]
  have hkf : ∀ (b : Bool) (x y : UFn D W E S), keep b (Fun.regularized x) (.regularized y) = .regularized (keep b x y) := by
    intro b x y; cases b <;> rfl
  rcases hc with rfl | rfl
  · simp only [constObj]
    rw [evalN_facade, evalN_core_ok g _ _ _ _ hd, coreTail_run g _ _ _ _ env' _ (ρ v).2 _ v (by cases v <;> rfl) hread hcall hfit, hreg]
    simp only [keep_self, Out.map, keep_core, hkf]
    refine ⟨_, _, _, _, rfl, ?_, ⟨?_, ?_⟩, ⟨(Cache.empty v.retTy).ne v, ?_, ?_⟩, ?_, ?_⟩
    · have : (cmpEvents (Cache.empty v.retTy) v : List (Ev D S)) = [] := by cases v <;> rfl
      rw [this, List.append_nil]
      exact hlog
    · rw [← hu]
      cases (g.facadeParamByValue || g.unwrapParamByValue) <;> cases g.coreParamsByValue <;> cases g.regParamByValue <;> rfl
    · cases (g.facadeParamByValue || g.unwrapParamByValue) <;> cases g.bindFrontCopies <;> simp
    · simp only [LazyRes.through, hlive]
    · intro h
      exfalso
      revert h
      cases v <;> simp [Cache.empty, Cache.engaged, OptRV.default, OptRV.toBool, Val.retTy]
    · intro h
      exfalso
      revert h
      cases v <;> simp [Cache.empty, Cache.engaged, OptRV.default, OptRV.toBool, Val.retTy]
    · rintro ⟨g1, g2, g3, g4⟩
      simp only [g1, g3, g4, Bool.or_self, keep_false]
      cases v <;> rfl
  · have hv : ((Cache.empty v.retTy : Cache D).assign v).val? = some v := by
      cases v <;> rfl
    have hen : ((Cache.empty v.retTy : Cache D).assign v).engaged = true := by
      cases v <;> rfl
    simp only [constObj]
    rw [evalN_facade, evalN_core_ok g _ _ _ _ hd, coreTail_skip g _ _ _ _ v hany hv]
    simp only [keep_self, Out.map]
    refine ⟨_, _, _, _, rfl, he, ⟨hu, .inr rfl⟩, ⟨_, ?_, fun _ => rfl⟩, fun _ => hen, fun _ => hen⟩
    simp only [LazyRes.through, hlive]

/-- A lazy function, given its dependencies. -/
theorem core_sim (g : Glue) (hg : g.AllOrNothing) (ρ : Recipe D W E S) (k : Nat) (u : UFn D W E S) (c : Cache D) (ds ds' : List (Sug D W E S))
    (hok : (Sug.lzy u c ds).Ok ρ k) (env env' e1 e1' : Env D W S) (o o' : Out E (List (LazyRes D)))
    (h1 : evalDeps g (Sug.srcL ds) env = (o, Sug.srcL ds', e1)) (h2 : evalDeps g (Sug.tgtL ρ ds) env' = (o', Sug.tgtL ρ ds', e1')) (he : Agree pre k e1 e1')
    (hds : Sug.OkL ρ k ds') (hr : ResRelL (ds.all Sug.settled) o o') (hm : ds.all Sug.settled = true → ds'.all Sug.settled = true)
    (hs : g.Retains → o.isOk = true → ds'.all Sug.settled = true) :
    ∃ u' c' ds'' o e e', evalN g (.core (.regularized u) c (Sug.srcL ds)) env = (o, .core (.regularized u') c' (Sug.srcL ds''), e) ∧
      evalN g (.core (.regularized u) c (Sug.tgtL ρ ds)) env' = (o, .core (.regularized u') c' (Sug.tgtL ρ ds''), e') ∧ Agree pre k e e' ∧
      (Sug.lzy u' c' ds'').Ok ρ k := by
  obtain ⟨hid, hdso, hset⟩ := hok
  have hkeep : ∀ b, keep b (Sug.srcL ds) (Sug.srcL ds') = Sug.srcL (keep b ds ds') ∧ keep b (Sug.tgtL ρ ds) (Sug.tgtL ρ ds') = Sug.tgtL ρ (keep b ds ds') := by
    intro b; cases b <;> exact ⟨rfl, rfl⟩
  have hOkK : ∀ b, Sug.OkL ρ k (keep b ds ds') := fun b => keep_ind (P := Sug.OkL ρ k) b hdso hds
  have hmK : ∀ b, ds.all Sug.settled = true → (keep b ds ds').all Sug.settled = true := by
    intro b h; cases b
    · exact hm h
    · exact h
  cases o with
  | ok rs =>
    obtain ⟨rs', rfl, hv, hse⟩ := hr
    obtain ⟨o, f', c', e2, e2', t1, t2, t3⟩ := coreTail_same g k (.regularized u) hid c rs rs' (readValues_same hv) (fun h => hse (hset h)) e1 e1' he
    obtain ⟨u', hu', hcode⟩ := coreTail_regularized g u c rs e1
    rw [t1] at hu'
    simp only at hu'
    subst hu'
    refine ⟨keep g.coreParamsByValue u u', keep g.bindFrontCopies c c', keep g.coreParamsByValue ds ds', o, e2, e2', ?_, ?_, t3, ?_, hOkK _, ?_⟩
    · rw [evalN_core_ok g _ _ _ _ h1, t1]
      simp only [(hkeep _).1]
      cases g.coreParamsByValue <;> rfl
    · rw [evalN_core_ok g _ _ _ _ h2, t2]
      simp only [(hkeep _).2]
      cases g.coreParamsByValue <;> rfl
    · have : (keep g.coreParamsByValue u u').toFnCode = u.toFnCode := keep_code _ _ _ hcode
      rw [this]
      exact hid
    · intro h
      rcases hg with hb | hr
      · rw [hb, keep_true] at h
        exact hmK _ (hset h)
      · rw [hr.2.1, keep_false]
        exact hs hr rfl
  | thrown x =>
    simp only [ResRelL] at hr
    subst hr
    refine ⟨u, c, keep g.coreParamsByValue ds ds', .thrown x, e1, e1', ?_, ?_, he, hid, hOkK _, fun h => hmK _ (hset h)⟩
    · rw [evalN_core_fail g _ _ _ _ h1 rfl, (hkeep _).1]
      rfl
    · rw [evalN_core_fail g _ _ _ _ h2 rfl, (hkeep _).2]
      rfl
  | ub =>
    simp only [ResRelL] at hr
    subst hr
    refine ⟨u, c, keep g.coreParamsByValue ds ds', .ub, e1, e1', ?_, ?_, he, hid, hOkK _, fun h => hmK _ (hset h)⟩
    · rw [evalN_core_fail g _ _ _ _ h1 rfl, (hkeep _).1]
      rfl
    · rw [evalN_core_fail g _ _ _ _ h2 rfl, (hkeep _).2]
      rfl
  | illFormed =>
    simp only [ResRelL] at hr
    subst hr
    refine ⟨u, c, keep g.coreParamsByValue ds ds', .illFormed, e1, e1', ?_, ?_, he, hid, hOkK _, fun h => hmK _ (hset h)⟩
    · rw [evalN_core_fail g _ _ _ _ h1 rfl, (hkeep _).1]
      rfl
    · rw [evalN_core_fail g _ _ _ _ h2 rfl, (hkeep _).2]
      rfl

mutual
/-- One dependency. -/
theorem st_sim (g : Glue) (hg : g.AllOrNothing) (hl : g.EquallyLive) (ρ : Recipe D W E S) (k : Nat) (hρ : ρ.Yields k) (hargs : g.resultByRef = true → ∀ v, (ρ v).2 = []) (t : Sug D W E S) (hok : t.Ok ρ k) (env env' : Env D W S)
    (he : Agree pre k env env') :
    ∃ (t' : Sug D W E S) (o o' : Out E (LazyRes D)) (e e' : Env D W S), evalN g t.src env = (o, t'.src, e) ∧ evalN g (t.tgt ρ) env' = (o', t'.tgt ρ, e') ∧ Agree pre k e e' ∧ t'.Ok ρ k ∧
      ResRel t.settled o o' ∧ (t.settled = true → t'.settled = true) ∧ (g.Retains → t'.settled = true) := by
  match t with
  | .val v u c =>
    obtain ⟨u', c', o', e1', h1, h2, h3, h4, h5, h6⟩ := const_sim g hl ρ k hρ hargs v u c hok env env' he
    exact ⟨.val v u' c', _, o', env, e1', by simp [Sug.src, evalN], by simpa [Sug.tgt] using h1, h2, h3, h4, h5, h6⟩
  | .fn u c =>
    have hd : ∀ e : Env D W S, evalDeps (E := E) g [.lazyValue (.data CxxData.zero) true] e =
        (.ok [⟨.data CxxData.zero, true, !(g.resultByRef && g.valueParamByValue)⟩], [.lazyValue (.data CxxData.zero) true], e) := by
      intro e; simp [evalDeps, evalN, Out.map]
    obtain ⟨o, f', c', e2, e2', t1, t2, t3⟩ := coreTail_same g k (.wrapDep u) trivial c [⟨.data CxxData.zero, true, !(g.resultByRef && g.valueParamByValue)⟩] _ rfl
      (fun _ => rfl) env env' he
    obtain ⟨u', hu', hcode⟩ := coreTail_wrapDep g u c [⟨.data CxxData.zero, true, !(g.resultByRef && g.valueParamByValue)⟩] env
    rw [t1] at hu'
    simp only at hu'
    subst hu'
    refine ⟨.fn (keep g.coreParamsByValue u u') (keep g.bindFrontCopies c c'), o, o, e2, e2', ?_, ?_, t3, trivial, ?_, fun _ => rfl, fun _ => rfl⟩
    · simp only [Sug.src]
      rw [evalN_core_ok g _ _ _ _ (hd env), t1]
      cases g.coreParamsByValue <;> rfl
    · simp only [Sug.tgt]
      rw [evalN_core_ok g _ _ _ _ (hd env'), t2]
      cases g.coreParamsByValue <;> rfl
    · cases o with
      | ok r => exact ⟨_, rfl, fun _ => rfl⟩
      | _ => rfl
  | .lzy u c ds =>
    obtain ⟨ds', o, o', e1, e1', h1, h2, h3, h4, h5, h6, h7⟩ := stL_sim g hg hl ρ k hρ hargs ds hok.2.1 env env' he
    obtain ⟨u', c', ds'', o2, e, e', k1, k2, k3, k4⟩ := core_sim g hg ρ k u c ds ds' hok env env' e1 e1' o o' h1 h2 h3 h4 h5 h6 h7
    refine ⟨keep (g.facadeParamByValue || g.unwrapParamByValue) (.lzy u c ds) (.lzy u' c' ds''),
      o2.map (LazyRes.through (g.resultByRef && (g.facadeParamByValue || g.unwrapParamByValue))),
      o2.map (LazyRes.through (g.resultByRef && (g.facadeParamByValue || g.unwrapParamByValue))), e, e', ?_, ?_, k3,
      keep_ind (P := Sug.Ok ρ k) _ hok k4, ?_, ?_, ?_⟩
    · simp only [Sug.src]
      rw [evalN_facade, k1]
      cases (g.facadeParamByValue || g.unwrapParamByValue) <;> simp [Sug.src]
    · simp only [Sug.tgt]
      rw [evalN_facade, k2]
      cases (g.facadeParamByValue || g.unwrapParamByValue) <;> simp only [keep_true, keep_false, Sug.tgt] <;> rfl
    · cases o2 with
      | ok r => exact ⟨_, rfl, fun _ => rfl⟩
      | _ => rfl
    · intro _; cases (g.facadeParamByValue || g.unwrapParamByValue) <;> rfl
    · intro _; cases (g.facadeParamByValue || g.unwrapParamByValue) <;> rfl
/-- All dependencies. -/
theorem stL_sim (g : Glue) (hg : g.AllOrNothing) (hl : g.EquallyLive) (ρ : Recipe D W E S) (k : Nat) (hρ : ρ.Yields k) (hargs : g.resultByRef = true → ∀ v, (ρ v).2 = []) (ts : List (Sug D W E S)) (hok : Sug.OkL ρ k ts) (env env' : Env D W S)
    (he : Agree pre k env env') :
    ∃ ts' o o' e e', evalDeps g (Sug.srcL ts) env = (o, Sug.srcL ts', e) ∧ evalDeps g (Sug.tgtL ρ ts) env' = (o', Sug.tgtL ρ ts', e') ∧ Agree pre k e e' ∧ Sug.OkL ρ k ts' ∧
      ResRelL (ts.all Sug.settled) o o' ∧ (ts.all Sug.settled = true → ts'.all Sug.settled = true) ∧ (g.Retains → o.isOk = true → ts'.all Sug.settled = true) := by
  match ts with
  | [] => exact ⟨[], .ok [], .ok [], env, env', by simp [Sug.srcL, evalDeps], by simp [Sug.tgtL, evalDeps], he, trivial, ⟨[], rfl, rfl, fun _ => rfl⟩, fun h => h, fun _ _ => rfl⟩
  | t :: ts =>
    obtain ⟨t', o, o', e1, e1', h1, h2, h3, h4, h5, h6, h7⟩ := st_sim g hg hl ρ k hρ hargs t hok.1 env env' he
    cases o with
    | ok r =>
      obtain ⟨b, rfl, hb⟩ := h5
      obtain ⟨ts', o, o', e2, e2', k1, k2, k3, k4, k5, k6, k7⟩ := stL_sim g hg hl ρ k hρ hargs ts hok.2 e1 e1' h3
      refine ⟨t' :: ts', o.map (r :: ·), o'.map ({ r with isChanged := b } :: ·), e2, e2', ?_, ?_, k3, ⟨h4, k4⟩, ?_, ?_, ?_⟩
      · simp only [Sug.srcL, evalDeps, h1, k1]
      · simp only [Sug.tgtL, evalDeps, h2, k2]
      · cases o with
        | ok rs =>
          obtain ⟨rs', rfl, q1, q2⟩ := k5
          refine ⟨_, rfl, by simp [q1], ?_⟩
          intro h
          simp only [List.all_cons, Bool.and_eq_true] at h
          rw [q2 h.2, hb h.1]
        | _ => simp only [ResRelL] at k5; subst k5; rfl
      · intro h
        simp only [List.all_cons, Bool.and_eq_true] at h ⊢
        exact ⟨h6 h.1, k6 h.2⟩
      · intro hr ho
        simp only [List.all_cons, Bool.and_eq_true]
        refine ⟨h7 hr, k7 hr ?_⟩
        cases o <;> simp_all [Out.map, Out.isOk]
    | thrown x =>
      simp only [ResRel] at h5
      subst h5
      refine ⟨t' :: ts, .thrown x, .thrown x, e1, e1', by simp only [Sug.srcL, evalDeps, h1]; rfl, by simp only [Sug.tgtL, evalDeps, h2]; rfl, h3, ⟨h4, hok.2⟩, rfl, ?_, ?_⟩
      · intro h
        simp only [List.all_cons, Bool.and_eq_true] at h ⊢
        exact ⟨h6 h.1, h.2⟩
      · intro _ ho
        simp [Out.isOk] at ho
    | ub =>
      simp only [ResRel] at h5
      subst h5
      refine ⟨t' :: ts, .ub, .ub, e1, e1', by simp only [Sug.srcL, evalDeps, h1]; rfl, by simp only [Sug.tgtL, evalDeps, h2]; rfl, h3, ⟨h4, hok.2⟩, rfl, ?_, ?_⟩
      · intro h
        simp only [List.all_cons, Bool.and_eq_true] at h ⊢
        exact ⟨h6 h.1, h.2⟩
      · intro _ ho
        simp [Out.isOk] at ho
    | illFormed =>
      simp only [ResRel] at h5
      subst h5
      refine ⟨t' :: ts, .illFormed, .illFormed, e1, e1', by simp only [Sug.srcL, evalDeps, h1]; rfl, by simp only [Sug.tgtL, evalDeps, h2]; rfl, h3, ⟨h4, hok.2⟩, rfl, ?_, ?_⟩
      · intro h
        simp only [List.all_cons, Bool.and_eq_true] at h ⊢
        exact ⟨h6 h.1, h.2⟩
      · intro _ ho
        simp [Out.isOk] at ho
end

/-- Is it an object a variable can hold? -/
def Sug.isLzy : Sug D W E S → Prop
  | .lzy _ _ _ => True
  | _ => False

/-- Variables of both programs. -/
structure SugVars (ρ : Recipe D W E S) (k : Nat) (ren : List Nat) (ts : List (Sug D W E S)) (vars vars' : List (Obj D W E S)) : Prop where
  src : vars = ts.map Sug.src
  ok : ∀ t ∈ ts, t.Ok ρ k ∧ t.isLzy
  len : ren.length = ts.length
  get : ∀ i t, ts[i]? = some t → vars'[ren.getD i 0]? = some (t.tgt ρ)
  inj : ∀ i j, i < ts.length → j < ts.length → ren.getD i 0 = ren.getD j 0 → i = j

theorem pigroLazy_values (f : UFn D W E S) (args : List (Val D)) (vars : List (Obj D W E S)) :
    (resolveAll vars (args.map .value)).bind (pigroLazy f) = some (constObj args f (Cache.empty f.ret)) := by
  have h1 : ∀ args : List (Val D), resolveAll vars (args.map .value) = some (args.map .value) := by
    intro args
    induction args with
    | nil => rfl
    | cons a l ih => simp [resolveAll, ArgRef.resolve, ih]
  have h2 : ∀ args : List (Val D), ensureAll (args.map .value : List (DepArg D W E S)) = some (args.map (.lazyValue · false)) := by
    intro args
    induction args with
    | nil => rfl
    | cons a l ih =>
      have : ensureLazy (.value a : DepArg D W E S) = some (.lazyValue a false) := rfl
      simp [ensureAll, ih, this]
  simp [h1, pigroLazy, h2, detailLazy, Fun.ret, constObj]

theorem ensureLazy_tgt (ρ : Recipe D W E S) (t : Sug D W E S) (h : t.isLzy) : ensureLazy (.lazyObj (t.tgt ρ)) = some (t.tgt ρ) := by
  cases t with
  | lzy u c ds => simp only [Sug.tgt]; rfl
  | _ => exact h.elim

theorem ensureLazy_src (t : Sug D W E S) (h : t.isLzy) : ensureLazy (.lazyObj t.src) = some t.src := by
  cases t with
  | lzy u c ds => simp only [Sug.src]; rfl
  | _ => exact h.elim

/-- Dependencies of one call of `lazy` in both programs. -/
theorem deps_sim (g : Glue) (ρ : Recipe D W E S) (k : Nat) (hρ : ρ.Yields k) (hargs : g.resultByRef = true → ∀ v, (ρ v).2 = []) (ren : List Nat) (ts : List (Sug D W E S)) (hts : ∀ t ∈ ts, t.Ok ρ k ∧ t.isLzy) (env' : Env D W S) :
    ∀ (as : List (ArgRef D W E S)) (vars' : List (Obj D W E S)) (os : List (Obj D W E S)),
    (resolveAll (ts.map Sug.src) as).bind ensureAll = some os →
    (∀ i t, ts[i]? = some t → vars'[ren.getD i 0]? = some (t.tgt ρ)) →
    ∃ us new, os = Sug.srcL us ∧ Sug.OkL ρ k us ∧ (run g ⟨vars', env'⟩ (desugarDeps ρ ren vars'.length as).1).2 = ⟨vars' ++ new, env'⟩ ∧
      (vars' ++ new).length = (desugarDeps ρ ren vars'.length as).2.2 ∧
      ∀ ext, (resolveAll (vars' ++ new ++ ext) (desugarDeps ρ ren vars'.length as).2.1).bind ensureAll = some (Sug.tgtL ρ us)
  | [], vars', os, h, _ => by
    simp only [resolveAll, Option.bind_some, ensureAll, Option.some.injEq] at h
    subst h
    exact ⟨[], [], by simp [Sug.srcL], trivial, by simp [desugarDeps, run], by simp [desugarDeps], fun ext => by simp [desugarDeps, resolveAll, ensureAll, Sug.tgtL]⟩
  | a :: as, vars', os, h, hget => by
    -- the head resolves, the tail resolves
    have hsplit : ∃ d ds o os', a.resolve (ts.map Sug.src) = some d ∧ resolveAll (ts.map Sug.src) as = some ds ∧ ensureLazy d = some o ∧
        ensureAll ds = some os' ∧ os = o :: os' := by
      simp only [resolveAll] at h
      rcases h1 : a.resolve (ts.map Sug.src) with _ | d
      · simp [h1] at h
      rcases h2 : resolveAll (ts.map Sug.src) as with _ | ds
      · simp [h1, h2] at h
      simp only [h1, h2, Option.bind_some, ensureAll] at h
      rcases h3 : ensureLazy d with _ | o
      · simp [h3] at h
      rcases h4 : ensureAll ds with _ | os'
      · simp [h3, h4] at h
      simp only [h3, h4, Option.some.injEq] at h
      exact ⟨d, ds, o, os', rfl, rfl, h3, h4, h.symm⟩
    obtain ⟨d, ds, o, os', h1, h2, h3, h4, rfl⟩ := hsplit
    have htail : (resolveAll (ts.map Sug.src) as).bind ensureAll = some os' := by rw [h2]; exact h4
    cases a with
    | value v =>
      simp only [ArgRef.resolve, Option.some.injEq] at h1
      subst h1
      have h3' : o = .lazyValue v false := by
        have : ensureLazy (.value v : DepArg D W E S) = some (.lazyValue v false) := rfl
        rw [this] at h3
        exact (Option.some.inj h3).symm
      subst h3'
      obtain ⟨us, new, k1, k2, k3, k4, k5⟩ := deps_sim g ρ k hρ hargs ren ts hts env' as (vars' ++ [constObj (ρ v).2 (ρ v).1 (Cache.empty (ρ v).1.ret)]) os' htail (by
        intro i t hi
        have := hget i t hi
        rw [List.getElem?_append_left]
        · exact this
        · exact (List.getElem?_eq_some_iff.mp this).1)
      simp only [List.length_append, List.length_cons, List.length_nil, Nat.zero_add] at k3 k4 k5
      refine ⟨.val v (ρ v).1 (Cache.empty (ρ v).1.ret) :: us, constObj (ρ v).2 (ρ v).1 (Cache.empty (ρ v).1.ret) :: new, by simp [Sug.srcL, Sug.src, k1], ⟨⟨rfl, .inl (by rw [(hρ v).2.1])⟩, k2⟩, ?_, ?_, ?_⟩
      · have hst : step g ⟨vars', env'⟩ (.mk (ρ v).1 ((ρ v).2.map .value)) = (.unit, ⟨vars' ++ [constObj (ρ v).2 (ρ v).1 (Cache.empty (ρ v).1.ret)], env'⟩) := by
          simp [step, pigroLazy_values]
        simp only [desugarDeps, run, hst, k3, List.append_assoc, List.cons_append, List.nil_append]
      · simp only [desugarDeps, ← k4, List.length_append, List.length_cons]
        omega
      · intro ext
        have := k5 ext
        simp only [desugarDeps, resolveAll, ArgRef.resolve]
        have hn : (vars' ++ constObj (ρ v).2 (ρ v).1 (Cache.empty (ρ v).1.ret) :: new ++ ext)[vars'.length]? = some (constObj (ρ v).2 (ρ v).1 (Cache.empty (ρ v).1.ret)) := by simp
        have happ : vars' ++ constObj (ρ v).2 (ρ v).1 (Cache.empty (ρ v).1.ret) :: new ++ ext = vars' ++ [constObj (ρ v).2 (ρ v).1 (Cache.empty (ρ v).1.ret)] ++ new ++ ext := by simp
        rw [hn, happ]
        simp only [Option.map_some]
        rcases h5 : resolveAll (vars' ++ [constObj (ρ v).2 (ρ v).1 (Cache.empty (ρ v).1.ret)] ++ new ++ ext) (desugarDeps ρ ren (vars'.length + 1) as).2.1 with _ | ds'
        · rw [h5] at this; simp at this
        · rw [h5] at this
          simp only [Option.bind_some] at this
          have hc : ensureLazy (.lazyObj (constObj (ρ v).2 (ρ v).1 (Cache.empty (ρ v).1.ret)) : DepArg D W E S) = some (constObj (ρ v).2 (ρ v).1 (Cache.empty (ρ v).1.ret)) := rfl
          simp only [Option.bind_some, ensureAll, hc, this, Sug.tgtL, Sug.tgt]
    | function u =>
      simp only [ArgRef.resolve, Option.some.injEq] at h1
      subst h1
      have h3' : o = (Sug.fn u (Cache.empty u.ret) : Sug D W E S).src := by
        have : ensureLazy (.function u : DepArg D W E S) = if u.ret = .void then none else some (detailLazy (.wrapDep u) [.lazyValue (.data CxxData.zero) true]) := rfl
        rw [this] at h3
        split at h3
        · simp at h3
        · rw [← Option.some.inj h3]; simp [Sug.src, detailLazy, Fun.ret]
      obtain ⟨us, new, k1, k2, k3, k4, k5⟩ := deps_sim g ρ k hρ hargs ren ts hts env' as vars' os' htail hget
      refine ⟨.fn u (Cache.empty u.ret) :: us, new, by simp [Sug.srcL, h3', k1], ⟨trivial, k2⟩, by simpa only [desugarDeps] using k3, by simpa only [desugarDeps] using k4, ?_⟩
      intro ext
      have := k5 ext
      simp only [desugarDeps, resolveAll, ArgRef.resolve]
      rcases h5 : resolveAll (vars' ++ new ++ ext) (desugarDeps ρ ren vars'.length as).2.1 with _ | ds'
      · rw [h5] at this; simp at this
      · rw [h5] at this
        simp only [Option.bind_some] at this
        simp only [Option.bind_some, ensureAll, h3, this, Sug.tgtL, h3', Sug.src, Sug.tgt]
    | var i =>
      simp only [ArgRef.resolve, List.getElem?_map] at h1
      rcases hi : ts[i]? with _ | t
      · simp [hi] at h1
      simp only [hi, Option.map_some, Option.some.injEq] at h1
      subst h1
      obtain ⟨hok, hz⟩ := hts t (List.mem_of_getElem? hi)
      rw [ensureLazy_src t hz, Option.some.injEq] at h3
      subst h3
      obtain ⟨us, new, k1, k2, k3, k4, k5⟩ := deps_sim g ρ k hρ hargs ren ts hts env' as vars' os' htail hget
      refine ⟨t :: us, new, by simp [Sug.srcL, k1], ⟨hok, k2⟩, by simpa only [desugarDeps] using k3, by simpa only [desugarDeps] using k4, ?_⟩
      intro ext
      have := k5 ext
      have hj := hget i t hi
      have hj' : (vars' ++ new ++ ext)[ren.getD i 0]? = some (t.tgt ρ) := by
        rw [List.append_assoc, List.getElem?_append_left]
        · exact hj
        · exact (List.getElem?_eq_some_iff.mp hj).1
      simp only [desugarDeps, resolveAll, ArgRef.resolve, hj', Option.map_some]
      rcases h5 : resolveAll (vars' ++ new ++ ext) (desugarDeps ρ ren vars'.length as).2.1 with _ | ds'
      · rw [h5] at this; simp at this
      · rw [h5] at this
        simp only [Option.bind_some] at this
        simp only [Option.bind_some, ensureAll, ensureLazy_tgt ρ t hz, this, Sug.tgtL]

theorem run_length (g : Glue) (ops : List (Op D W E S)) : ∀ st : State D W E S, (run g st ops).1.length = ops.length := by
  induction ops with
  | nil => intro st; rfl
  | cons op ops ih => intro st; simp [run, ih]

omit [CxxData D] in
theorem marked_skip {α : Type} (n : Nat) (ms : List Bool) (xs ys : List α) (h : xs.length = n) :
    marked (List.replicate n false ++ ms) (xs ++ ys) = marked ms ys := by
  induction n generalizing xs with
  | zero => cases xs <;> simp_all
  | succ n ih =>
    cases xs with
    | nil => simp at h
    | cons x xs => simp only [List.replicate_succ, List.cons_append, marked]; exact ih xs (by simpa using h)

/-- A new variable at the end of both programs. -/
theorem SugVars.push {ρ : Recipe D W E S} {k : Nat} {ren : List Nat} {ts : List (Sug D W E S)} {vars vars' : List (Obj D W E S)} (h : SugVars ρ k ren ts vars vars')
    (t : Sug D W E S) (ht : t.Ok ρ k ∧ t.isLzy) (new : List (Obj D W E S)) :
    SugVars ρ k (ren ++ [(vars' ++ new).length]) (ts ++ [t]) (vars ++ [t.src]) (vars' ++ new ++ [t.tgt ρ]) := by
  have hlt : ∀ i, i < ts.length → ren.getD i 0 < vars'.length := by
    intro i hi
    have := h.get i _ (List.getElem?_eq_getElem hi)
    exact (List.getElem?_eq_some_iff.mp this).1
  have hold : ∀ i, i < ts.length → (ren ++ [(vars' ++ new).length]).getD i 0 = ren.getD i 0 := by
    intro i hi
    simp only [List.getD_eq_getElem?_getD]
    rw [List.getElem?_append_left (by rw [h.len]; exact hi)]
  have hnew : (ren ++ [(vars' ++ new).length]).getD ts.length 0 = (vars' ++ new).length := by
    simp only [List.getD_eq_getElem?_getD]
    rw [List.getElem?_append_right (by rw [h.len]; exact Nat.le_refl _), h.len]
    simp
  refine ⟨by simp [h.src], ?_, by simp [h.len], ?_, ?_⟩
  · intro u hu
    rcases List.mem_append.mp hu with hu | hu
    · exact h.ok u hu
    · rw [List.mem_singleton.mp hu]; exact ht
  · intro i u hi
    by_cases hlt' : i < ts.length
    · rw [List.getElem?_append_left hlt'] at hi
      rw [hold i hlt', List.append_assoc, List.getElem?_append_left (hlt i hlt')]
      exact h.get i u hi
    · have hie : i = ts.length := by
        have := (List.getElem?_eq_some_iff.mp hi).1
        simp at this
        omega
      subst hie
      rw [hnew]
      simp only [List.getElem?_concat_length, Option.some.injEq] at hi ⊢
      rw [hi]
  · intro i j hi hj he
    simp only [List.length_append, List.length_cons, List.length_nil] at hi hj
    by_cases hi' : i < ts.length <;> by_cases hj' : j < ts.length
    · rw [hold i hi', hold j hj'] at he
      exact h.inj i j hi' hj' he
    · have : j = ts.length := by omega
      subst this
      rw [hold i hi', hnew] at he
      have := hlt i hi'
      rw [List.length_append] at he
      omega
    · have : i = ts.length := by omega
      subst this
      rw [hold j hj', hnew] at he
      have := hlt j hj'
      rw [List.length_append] at he
      omega
    · omega

/-- A variable changed in both programs. -/
theorem SugVars.set {ρ : Recipe D W E S} {k : Nat} {ren : List Nat} {ts : List (Sug D W E S)} {vars vars' : List (Obj D W E S)} (h : SugVars ρ k ren ts vars vars')
    (i : Nat) (t t' : Sug D W E S) (hi : ts[i]? = some t) (ht : t'.Ok ρ k ∧ t'.isLzy) :
    SugVars ρ k ren (ts.set i t') (vars.set i t'.src) (vars'.set (ren.getD i 0) (t'.tgt ρ)) := by
  have hil : i < ts.length := (List.getElem?_eq_some_iff.mp hi).1
  refine ⟨by simp [h.src], ?_, by simp [h.len], ?_, by simpa using h.inj⟩
  · intro u hu
    rcases List.mem_or_eq_of_mem_set hu with hu | rfl
    · exact h.ok u hu
    · exact ht
  · intro j u hj
    rw [List.getElem?_set] at hj
    split at hj
    · rename_i hij
      subst hij
      have hj' : u = t' := by simp at hj; exact hj.symm
      subst hj'
      have := (List.getElem?_eq_some_iff.mp (h.get i t hi)).1
      rw [List.getElem?_set]
      simp only [if_true, this]
    · rename_i hij
      have hjl : j < ts.length := (List.getElem?_eq_some_iff.mp hj).1
      rw [List.getElem?_set, if_neg (fun he => hij (h.inj i j hil hjl he))]
      exact h.get j u hj

theorem var_sim {ρ : Recipe D W E S} {k : Nat} {ren : List Nat} {ts : List (Sug D W E S)} {vars vars' : List (Obj D W E S)} (h : SugVars ρ k ren ts vars vars')
    (i : Nat) (o : Obj D W E S) (hi : vars[i]? = some o) :
    ∃ u c ds, ts[i]? = some (.lzy u c ds) ∧ o = (Sug.lzy u c ds).src ∧ vars'[ren.getD i 0]? = some ((Sug.lzy u c ds).tgt ρ) ∧ (Sug.lzy u c ds).Ok ρ k := by
  rw [h.src, List.getElem?_map] at hi
  rcases ht : ts[i]? with _ | t
  · simp [ht] at hi
  · simp only [ht, Option.map_some, Option.some.injEq] at hi
    obtain ⟨hok, hz⟩ := h.ok t (List.mem_of_getElem? ht)
    cases t with
    | lzy u c ds => exact ⟨u, c, ds, rfl, hi.symm, h.get i _ ht, hok⟩
    | _ => exact hz.elim

/-- The same variable called in both programs. -/
theorem call_sim (g : Glue) (hg : g.AllOrNothing) (hl : g.EquallyLive) (ρ : Recipe D W E S) (k : Nat) (hρ : ρ.Yields k) (hargs : g.resultByRef = true → ∀ v, (ρ v).2 = []) (ren : List Nat)
    (ts : List (Sug D W E S)) (st st' : State D W E S) (hv : SugVars ρ k ren ts st.vars st'.vars) (he : Agree pre k st.env st'.env) (i : Nat) (o : Obj D W E S)
    (hi : st.vars[i]? = some o) :
    ∃ (r : Out E (Option (Val D))) (ts' : List (Sug D W E S)) (s1 s1' : State D W E S), step g st (.call i) = (.ret r, s1) ∧
      step g st' (.call (ren.getD i 0)) = (.ret r, s1') ∧ SugVars ρ k ren ts' s1.vars s1'.vars ∧ Agree pre k s1.env s1'.env ∧
      s1'.vars.length = st'.vars.length := by
  obtain ⟨u, c, ds, h1, rfl, h3, h4⟩ := var_sim hv i o hi
  obtain ⟨ds', o, o', e1, e1', q1, q2, q3, q4, q5, q6, q7⟩ := stL_sim g hg hl ρ k hρ hargs ds h4.2.1 st.env st'.env he
  obtain ⟨u', c', ds'', o2, e, e', p1, p2, p3, p4⟩ := core_sim g hg ρ k u c ds ds' h4 _ _ e1 e1' o o' q1 q2 q3 q4 q5 q6 q7
  have hrv : (Obj.core (.regularized u) c (Sug.srcL ds)).valueIsRV = (Obj.core (.regularized u) c (Sug.tgtL ρ ds)).valueIsRV := by
    cases c <;> rfl
  have hc1 : ∃ r, call0 g (Sug.lzy u c ds).src st.env = (r, (keep (g.facadeParamByValue || g.unwrapParamByValue) (Sug.lzy u c ds) (Sug.lzy u' c' ds'')).src, e) ∧
      call0 g ((Sug.lzy u c ds).tgt ρ) st'.env = (r, (keep (g.facadeParamByValue || g.unwrapParamByValue) (Sug.lzy u c ds) (Sug.lzy u' c' ds'')).tgt ρ, e') := by
    simp only [Sug.src, Sug.tgt]
    rw [call0_facade, call0_facade, p1, p2, hrv]
    refine ⟨_, Prod.ext rfl (Prod.ext ?_ rfl), Prod.ext rfl (Prod.ext ?_ rfl)⟩
    · cases (g.facadeParamByValue || g.unwrapParamByValue) <;> simp [Sug.src]
    · cases (g.facadeParamByValue || g.unwrapParamByValue) <;> simp [Sug.tgt]
  obtain ⟨r, c1, c2⟩ := hc1
  have hset := hv.set i _ (keep (g.facadeParamByValue || g.unwrapParamByValue) (Sug.lzy u c ds) (Sug.lzy u' c' ds'')) h1
    ⟨keep_ind (P := Sug.Ok ρ k) _ h4 p4, keep_ind (P := Sug.isLzy) _ trivial trivial⟩
  have hs1 := step_call g st i _ hi
  have hs2 := step_call g st' (ren.getD i 0) _ h3
  rw [c1] at hs1
  rw [c2] at hs2
  exact ⟨r, _, _, _, hs1, hs2, hset, p3, by simp⟩

/-- Both programs, from any related states. -/
theorem sugar_sim (g : Glue) (hg : g.AllOrNothing) (hl : g.EquallyLive) (ρ : Recipe D W E S) (k : Nat) (hρ : ρ.Yields k) (hargs : g.resultByRef = true → ∀ v, (ρ v).2 = []) : ∀ (ops : List (Op D W E S)) (ren : List Nat) (ts : List (Sug D W E S))
    (st st' : State D W E S), SugVars ρ k ren ts st.vars st'.vars → Agree pre k st.env st'.env → (∀ f ∈ wrappedFns ops, f.id ≠ k) →
    (∀ o ∈ (run g st ops).1, o ≠ .invalid) →
    let t := desugar ρ ren st'.vars.length ops
    let a := run g st ops
    let b := run g st' (t.map (·.2))
    marked (t.map (·.1)) b.1 = a.1 ∧ Agree pre k a.2.env b.2.env
  | [], ren, ts, st, st', hv, he, _, _ => ⟨rfl, he⟩
  | .mk f deps :: l, ren, ts, st, st', hv, he, hid, hok => by
    rcases hb : (resolveAll st.vars deps).bind ensureAll with _ | os
    · exfalso
      refine hok .invalid ?_ rfl
      have : (resolveAll st.vars deps).bind (pigroLazy f) = none := by
        rcases h1 : resolveAll st.vars deps with _ | ds
        · rfl
        · rw [h1] at hb
          simp only [Option.bind_some] at hb ⊢
          simp [pigroLazy, hb]
      simp [run, step, this]
    · have hb' := hb
      rw [hv.src] at hb'
      obtain ⟨us, new, k1, k2, k3, k4, k5⟩ := deps_sim g ρ k hρ hargs ren ts hv.ok st'.env deps st'.vars os hb' hv.get
      have hstep : step g st (.mk f deps) = (.unit, ⟨st.vars ++ [(Sug.lzy f (Cache.empty f.ret) us).src], st.env⟩) := by
        have : (resolveAll st.vars deps).bind (pigroLazy f) = some (Sug.lzy f (Cache.empty f.ret) us).src := by
          rcases h1 : resolveAll st.vars deps with _ | ds
          · rw [h1] at hb; simp at hb
          · rw [h1] at hb
            simp only [Option.bind_some] at hb ⊢
            simp [pigroLazy, hb, Sug.src, detailLazy, Fun.ret, k1]
        simp [step, this]
      have hstep' : step g ⟨st'.vars ++ new, st'.env⟩ (.mk f (desugarDeps ρ ren st'.vars.length deps).2.1) =
          (.unit, ⟨st'.vars ++ new ++ [(Sug.lzy f (Cache.empty f.ret) us).tgt ρ], st'.env⟩) := by
        have : (resolveAll (st'.vars ++ new) (desugarDeps ρ ren st'.vars.length deps).2.1).bind (pigroLazy f) = some ((Sug.lzy f (Cache.empty f.ret) us).tgt ρ) := by
          have h0 := k5 []
          rw [List.append_nil] at h0
          rcases h1 : resolveAll (st'.vars ++ new) (desugarDeps ρ ren st'.vars.length deps).2.1 with _ | ds
          · rw [h1] at h0; simp at h0
          · rw [h1] at h0
            simp only [Option.bind_some] at h0 ⊢
            simp [pigroLazy, h0, Sug.tgt, detailLazy, Fun.ret]
        simp [step, this]
      have hfid : f.id ≠ k := hid f (by simp [wrappedFns])
      have hne : (Cache.empty f.ret : Cache D).engaged = false := by cases f.ret <;> rfl
      have hpush := hv.push (.lzy f (Cache.empty f.ret) us) ⟨⟨hfid, k2, by simp [hne]⟩, trivial⟩ new
      have ih := sugar_sim g hg hl ρ k hρ hargs l (ren ++ [(st'.vars ++ new).length]) (ts ++ [.lzy f (Cache.empty f.ret) us])
        ⟨st.vars ++ [(Sug.lzy f (Cache.empty f.ret) us).src], st.env⟩ ⟨st'.vars ++ new ++ [(Sug.lzy f (Cache.empty f.ret) us).tgt ρ], st'.env⟩ hpush he
        (fun f' hf' => hid f' (by simp [wrappedFns, hf'])) (by
          intro o ho
          exact hok o (by simp [run, hstep, ho]))
      have hlen : (st'.vars ++ new ++ [(Sug.lzy f (Cache.empty f.ret) us).tgt ρ]).length = (desugarDeps ρ ren st'.vars.length deps).2.2 + 1 := by
        rw [← k4, List.length_append (bs := [_])]; rfl
      simp only [hlen, k4] at ih
      simp only [desugar, List.map_append, List.map_map, List.map_cons, Function.comp_def, List.map_id', run_append, run, k3, hstep, hstep']
      rw [List.map_const', marked_skip _ _ _ _ (by rw [run_length])]
      simp only [marked]
      exact ⟨by rw [ih.1], ih.2⟩
  | .copy i :: l, ren, ts, st, st', hv, he, hid, hok => by
    rcases hi : st.vars[i]? with _ | o
    · exact (hok .invalid (by simp [run, step, hi]) rfl).elim
    · obtain ⟨u, c, ds, h1, rfl, h3, h4⟩ := var_sim hv i o hi
      have hpush := hv.push (.lzy u c ds) ⟨h4, trivial⟩ []
      rw [List.append_nil] at hpush
      have ih := sugar_sim g hg hl ρ k hρ hargs l _ _ ⟨st.vars ++ [(Sug.lzy u c ds).src], st.env⟩ ⟨st'.vars ++ [(Sug.lzy u c ds).tgt ρ], st'.env⟩ hpush he
        (fun f' hf' => hid f' (by simpa [wrappedFns] using hf')) (by
          intro o ho
          exact hok o (by simp [run, step, hi, ho]))
      simp only [List.length_append, List.length_cons, List.length_nil, Nat.zero_add] at ih
      simp only [desugar, List.map_cons, run, step, hi, h3, marked]
      exact ⟨by rw [ih.1], ih.2⟩
  | .call i :: l, ren, ts, st, st', hv, he, hid, hok => by
    rcases hi : st.vars[i]? with _ | o
    · exact (hok .invalid (by simp [run, step, hi]) rfl).elim
    · obtain ⟨r, ts', s1, s1', hs1, hs2, hv', he', hlen⟩ := call_sim g hg hl ρ k hρ hargs ren ts st st' hv he i o hi
      have ih := sugar_sim g hg hl ρ k hρ hargs l ren _ s1 s1' hv' he' (fun f' hf' => hid f' (by simpa [wrappedFns] using hf')) (by
          intro o ho
          exact hok o (by simp [run, hs1, ho]))
      rw [hlen] at ih
      simp only [desugar, List.map_cons, run, hs1, hs2, marked]
      exact ⟨by rw [ih.1], ih.2⟩
  | .poll i :: l, ren, ts, st, st', hv, he, hid, hok => by
    rcases hi : st.vars[i]? with _ | o
    · exact (hok .invalid (by simp [run, step, hi]) rfl).elim
    · obtain ⟨u, c, ds, h1, rfl, h3, h4⟩ := var_sim hv i o hi
      obtain ⟨ds', o, o', e1, e1', q1, q2, q3, q4, q5, q6, q7⟩ := stL_sim g hg hl ρ k hρ hargs ds h4.2.1 st.env st'.env he
      obtain ⟨u', c', ds'', o2, e, e', p1, p2, p3, p4⟩ := core_sim g hg ρ k u c ds ds' h4 _ _ e1 e1' o o' q1 q2 q3 q4 q5 q6 q7
      have hc1 : ∃ r, evalN g (Sug.lzy u c ds).src st.env = (r, (keep (g.facadeParamByValue || g.unwrapParamByValue) (Sug.lzy u c ds) (Sug.lzy u' c' ds'')).src, e) ∧
          evalN g ((Sug.lzy u c ds).tgt ρ) st'.env = (r, (keep (g.facadeParamByValue || g.unwrapParamByValue) (Sug.lzy u c ds) (Sug.lzy u' c' ds'')).tgt ρ, e') := by
        simp only [Sug.src, Sug.tgt]
        rw [evalN_facade, evalN_facade, p1, p2]
        refine ⟨_, Prod.ext rfl (Prod.ext ?_ rfl), Prod.ext rfl (Prod.ext ?_ rfl)⟩
        · cases (g.facadeParamByValue || g.unwrapParamByValue) <;> simp [Sug.src]
        · cases (g.facadeParamByValue || g.unwrapParamByValue) <;> simp [Sug.tgt]
      obtain ⟨r, c1, c2⟩ := hc1
      have hset := hv.set i _ (keep (g.facadeParamByValue || g.unwrapParamByValue) (Sug.lzy u c ds) (Sug.lzy u' c' ds'')) h1
        ⟨keep_ind (P := Sug.Ok ρ k) _ h4 p4, keep_ind (P := Sug.isLzy) _ trivial trivial⟩
      have hs1 := step_poll g st i _ hi
      have hs2 := step_poll g st' (ren.getD i 0) _ h3
      rw [c1] at hs1
      rw [c2] at hs2
      have ih := sugar_sim g hg hl ρ k hρ hargs l ren _ ⟨_, e⟩ ⟨_, e'⟩ hset p3 (fun f' hf' => hid f' (by simpa [wrappedFns] using hf')) (by
          intro o ho
          exact hok o (by simp [run, hs1, ho]))
      simp only [List.length_set] at ih
      simp only [desugar, List.map_cons, run, hs1, hs2, marked]
      exact ⟨by rw [ih.1], ih.2⟩
  | .poke h :: l, ren, ts, st, st', hv, he, hid, hok => by
    have ih := sugar_sim g hg hl ρ k hρ hargs l ren ts { st with env := { st.env with w := h st.env.w } } { st' with env := { st'.env with w := h st'.env.w } } hv
      ⟨by simp only [he.1], he.2⟩ (fun f' hf' => hid f' (by simpa [wrappedFns] using hf')) (by
        intro o ho
        exact hok o (by simp [run, step, ho]))
    simp only [desugar, List.map_cons, run, step, marked]
    exact ⟨by rw [ih.1], ih.2⟩

omit [CxxData D] in
theorem lambdas_yield (k : Nat) (s : S) : (lambdas k s : Recipe D W E S).Yields k :=
  fun _ => ⟨rfl, rfl, by simp [lambdas], fun s _ => ⟨s, rfl⟩⟩

end Pigro
