import Verif.Spec.Reentrant
import Verif.Proofs.HistoryFresh
import Verif.Proofs.LazyMore
import Verif.Proofs.Sharing
/-!
# Reentrancy: lemmas
-/
namespace Pigro.Re
variable {D W E S O : Type} [CxxData D]

omit [CxxData D] in
theorem assign_deref (c : Cache D) (v : Val D) : (c.assign v).deref = some (match c with | .opt _ => v | .rv _ => .rvoid) := by
  cases c <;> rfl

omit [CxxData D] in
theorem answer_assign (g : Glue) {c : Cache D} {ret : RetTy} (hf : c.Fits ret) {a : Option (Val D)} (ha : answer (E := E) g c = .ok a) (v : Val D) :
    answer (E := E) g (c.assign (ret.regularize v)) = .ok (result ret v) := by
  rcases g with ⟨b1, b2, b3, b4, b5, b6, b7, b8⟩
  rcases c with (_ | o) | o
  · cases ha
  · cases hf
    cases b8 <;> cases b1 <;> cases b3 <;> first | rfl | cases ha
  · have hr : result ret v = none := if_neg hf
    rw [hr]
    cases b8 <;> cases b3 <;> first | rfl | cases ha

/-- Without reentrancy, this is the model of `Model/Lazy.lean`. -/
theorem call_plain (g : Glue) (x : Node D W E S) (hp : x.f.Plain) (n : Nat) (env : Env D W S) :
    ∃ o x' env', call g (n + 1) x env = some (o, x', env') ∧ call0 g x.obj env = (o, x'.obj, env') ∧ x'.f.body = x.f.body := by
  rw [Node.obj, call0_facade]
  rcases he : evalDeps g x.deps env with ⟨o, deps', env1⟩
  rcases x with ⟨⟨id, ret, body, st⟩, cache, deps⟩
  cases o with
  | ok rs =>
    rw [evalN_core_ok g _ _ _ _ he]
    simp only [call, he, coreTail]
    cases hch : (!cache.engaged || any LazyRes.isChanged rs) with
    | false =>
      refine ⟨_, _, _, rfl, ?_, rfl⟩
      simp only [Node.obj, RFn.plain, copiesDeps, copiesAll, answer, Bool.false_eq_true, if_false]
      have hd : cache.deref ≠ none := by
        simp only [Bool.or_eq_false_iff, Bool.not_eq_false'] at hch
        rcases cache with (_ | _) | _ <;> simp_all [Cache.engaged, Cache.deref]
      rcases hq : cache.deref with _ | v
      · exact absurd hq hd
      · rcases g with ⟨a, b, c, d, e, f, h, r⟩
        cases a <;> cases b <;> cases c <;> cases d <;> rcases cache with q | q <;> rfl
    | true =>
      simp only [if_true]
      rcases hv : readValues rs with _ | args
      · refine ⟨_, _, _, rfl, ?_, rfl⟩
        simp only [Node.obj, RFn.plain, copiesDeps, copiesAll]
        rcases g with ⟨a, b, c, d, e, f, h, r⟩
        cases b <;> cases c <;> cases d <;> cases a <;> rfl
      · obtain ⟨r, st', w', hb⟩ := hp st args env1.w
        simp only at hb
        have hplain : (⟨id, ret, body, st⟩ : RFn D W E S).plain.run st args env1.w = (r, st', w') := by simp only [RFn.plain, hb]
        simp only [hb, Fun.call, UFn.invoke]
        cases r with
        | ok v =>
          refine ⟨_, _, _, rfl, ?_, rfl⟩
          simp only [RFn.plain, hb, assign_deref, Node.obj, copiesDeps, copiesAll, copiesCache, copiesFn, answer]
          rcases g with ⟨a, b, c, d, e, f, h, r⟩
          cases a <;> cases b <;> cases c <;> cases d <;> cases e <;> rcases cache with q | q <;> rfl
        | error e =>
          refine ⟨_, _, _, rfl, ?_, rfl⟩
          simp only [RFn.plain, hb, Node.obj, copiesDeps, copiesAll, copiesFn]
          rcases g with ⟨a, b, c, d, e, f, h, r⟩
          cases a <;> cases b <;> cases c <;> cases d <;> cases e <;> rfl
  | _ =>
    rw [evalN_core_fail g _ _ _ _ he rfl]
    simp only [call, he]
    refine ⟨_, _, _, rfl, ?_, rfl⟩
    simp only [Node.obj, RFn.plain, copiesDeps, copiesAll, Out.map]
    rcases g with ⟨a, b, c, d, e, f, h, r⟩
    cases b <;> cases c <;> cases d <;> rfl

omit [CxxData D] in
theorem runBody_ind (g : Glue) (m : Meaning D W E S O) (ob : O) (P : Node D W E S → Prop)
    (self : Node D W E S → Env D W S → Option (Out E (Option (Val D)) × Node D W E S × Env D W S))
    (hself : ∀ y e o y' e', P y → m.obs e.w = ob → self y e = some (o, y', e') → P y' ∧ m.obs e'.w = ob)
    (hst : ∀ y st, P y → P { y with f := { y.f with st := st } }) (b : Body D W E S) (hb : Calm m ob b) :
    ∀ x env o st x2 env2, P x → runBody g self b x env = some (o, st, x2, env2) → P x2 ∧ m.obs env2.w = ob := by
  induction hb with
  | done r st w hw =>
    intro x env o st' x2 env2 hx h
    cases r <;> · simp only [runBody, Option.some.injEq, Prod.mk.injEq] at h
                  obtain ⟨_, _, rfl, rfl⟩ := h
                  exact ⟨hx, hw⟩
  | again st w k hw _ ih =>
    intro x env o st' x2 env2 hx h
    rw [runBody] at h
    rcases hq : self { x with f := { x.f with st := keep (copiesFn g) x.f.st st } } { env with w := w } with _ | ⟨q, y, e⟩
    · rw [hq] at h; cases h
    · rw [hq] at h
      obtain ⟨hy, he⟩ := hself _ _ _ _ _ (hst _ _ hx) hw hq
      cases q with
      | ok v => exact ih _ _ _ he _ _ _ _ _ _ hy h
      | thrown e => exact ih _ _ _ he _ _ _ _ _ _ hy h
      | _ =>
        simp only [Option.some.injEq, Prod.mk.injEq] at h
        obtain ⟨_, _, rfl, rfl⟩ := h
        exact ⟨hy, he⟩

/-- The meaning that observes nothing. -/
def blind : Meaning D W E S Unit := ⟨fun _ => (), fun _ _ => .rvoid, fun _ _ => .rvoid⟩

omit [CxxData D] in
theorem calm_blind (b : Body D W E S) : Calm blind () b := by
  induction b with
  | done r st w => exact .done _ _ _ rfl
  | again st w k ih => exact .again _ _ _ rfl fun a st' w' _ => ih a st' w'

/-- What stays true of the object. -/
structure Inv (m : Meaning D W E S O) (us : List (Tree D W E S)) (f : RFn D W E S) (x : Node D W E S) : Prop where
  shape : ShapeL us x.deps
  cons : ConsL m us x.deps
  fits : x.cache.Fits f.ret
  code : x.f = { f with st := x.f.st }

theorem Deps.eval (hs : SoundNe D) {g : Glue} {m : Meaning D W E S O} {us : List (Tree D W E S)} (hd : Deps g m us) {ds : List (Obj D W E S)}
    (h1 : ShapeL us ds) (h2 : ConsL m us ds) (env : Env D W S) : ∃ rs ds' env', evalDeps g ds env = (.ok rs, ds', env') ∧
      readValues rs = some (us.map (m.eager (m.obs env.w))) ∧ m.obs env'.w = m.obs env.w ∧ ShapeL us ds' ∧
      (g.Retains → LastAllL m (m.obs env.w) us ds') ∧
      (ReflNe D → any LazyRes.isChanged rs = (List.zipWith flag (ds.map Obj.lastVal) (us.map (m.eager (m.obs env.w)))).any id ∧
        fnCalls env'.log = fnCalls env.log ++ expectL m (m.obs env.w) us ds) := by
  obtain ⟨rs, ds', env', he, hval, hlive, _, hobs, hret, hrefl⟩ :=
    evalDeps_stepOk hs g m us ds env h1 (fun t ht => (hd.ok t ht).1) (fun t ht => (hd.ok t ht).2.1) (fun t ht => (hd.ok t ht).2.2) h2
  refine ⟨rs, ds', env', he, ?_, hobs, ?_, hret, fun hr => ⟨?_, (hrefl hr).2.1⟩⟩
  · rw [readValues_live hlive, hval]
    intro r hr
    subst hr
    have hlen : us.length = 1 := by
      have := congrArg List.length hval; simpa using this.symm
    obtain ⟨t, ht⟩ := List.length_eq_one_iff.1 hlen
    have := hd.lone t ht (m.obs env.w)
    rw [ht] at hval
    simp only [List.map_cons, List.map_nil, List.cons.injEq, and_true] at hval
    rw [← hval] at this
    cases hx : r.value with
    | tup vs => exact absurd hx (this vs)
    | _ => rfl
  · have := evalDeps_shape g us ds env h1
    rw [he] at this
    exact this
  · rw [any_eq, map_isChanged_any, (hrefl hr).1, hval]

section
variable {g : Glue} {m : Meaning D W E S O} {us : List (Tree D W E S)} {f : RFn D W E S}

omit [CxxData D] in
theorem retains_copies (hg : g.Retains) : copiesAll g = false ∧ copiesDeps g = false ∧ copiesCache g = false ∧ copiesFn g = g.regParamByValue := by
  obtain ⟨a, b, c, d⟩ := hg
  simp [copiesAll, copiesDeps, copiesCache, copiesFn, a, b, c, d]

theorem Inv.setSt {x : Node D W E S} (h : Inv m us f x) (st : S) : Inv m us f { x with f := { x.f with st := st } } :=
  ⟨h.shape, h.cons, h.fits, by simp only; rw [h.code]⟩

/-- Calls keep the invariant; with a function that does not meddle with what plain functions observe, the dependencies have been evaluated where the call was made, and
what was returned is what is in the cache. -/
theorem call_inv (hs : SoundNe D) (hg : g.Retains) (hd : Deps g m us) : ∀ n x env o x' env', Inv m us f x → call g n x env = some (o, x', env') →
    Inv m us f x' ∧ ((∀ st args w, Calm m (m.obs w) (f.body st args w)) → m.obs env'.w = m.obs env.w ∧ LastAllL m (m.obs env.w) us x'.deps ∧
      (∀ a, o = .ok a → answer (E := E) g x'.cache = .ok a ∧ x'.cache.engaged = true))
  | 0, _, _, _, _, _, _, h => by cases h
  | n + 1, x, env, o, x', env', hx, h => by
    obtain ⟨c1, c2, c3, c4⟩ := retains_copies hg
    obtain ⟨rs, ds', env1, he, hv, hobs, hsh, hlast, _⟩ := hd.eval hs hx.shape hx.cons env
    have hl := hlast hg
    simp only [call, he, c2, c3, keep_false] at h
    have hx1 : Inv m us f { x with deps := ds' } := ⟨hsh, hl.consL, hx.fits, hx.code⟩
    cases hch : (!x.cache.engaged || any LazyRes.isChanged rs) with
    | false =>
      simp only [hch, Bool.false_eq_true, if_false, Option.some.injEq, Prod.mk.injEq] at h
      obtain ⟨rfl, rfl, rfl⟩ := h
      simp only [Bool.or_eq_false_iff, Bool.not_eq_false'] at hch
      exact ⟨hx1, fun _ => ⟨hobs, hl, fun a ha => ⟨ha, hch.1⟩⟩⟩
    | true =>
      simp only [hch, if_true, hv] at h
      rcases hq : runBody g (call g n) (x.f.body x.f.st (us.map (m.eager (m.obs env.w))) env1.w) { x with deps := ds' } env1 with _ | ⟨q, st, x2, env2⟩
      · rw [hq] at h; cases h
      · rw [hq] at h
        have hinv : Inv m us f x2 := (runBody_ind g blind () (Inv m us f) (call g n)
          (fun y e o y' e' hy _ h => ⟨(call_inv hs hg hd n y e o y' e' hy h).1, rfl⟩) (fun y st hy => hy.setSt st) _ (calm_blind _) _ _ _ _ _ _ hx1 hq).1
        have hcalm : (∀ st args w, Calm m (m.obs w) (f.body st args w)) → m.obs env2.w = m.obs env.w ∧ LastAllL m (m.obs env.w) us x2.deps := by
          intro hc
          have := runBody_ind g m (m.obs env.w) (fun y => Inv m us f y ∧ LastAllL m (m.obs env.w) us y.deps) (call g n)
            (fun y e o y' e' hy he' h => by
              obtain ⟨q1, q2⟩ := call_inv hs hg hd n y e o y' e' hy.1 h
              obtain ⟨q3, q4, _⟩ := q2 hc
              rw [he'] at q3 q4
              exact ⟨⟨q1, q4⟩, q3⟩)
            (fun y st hy => ⟨hy.1.setSt st, hy.2⟩) _ (by
              rw [hx.code, ← hobs]
              exact hc _ _ _) _ _ _ _ _ _ ⟨hx1, hl⟩ hq
          exact ⟨this.2, this.1.2⟩
        cases q with
        | ok v =>
          simp only [Option.some.injEq, Prod.mk.injEq] at h
          obtain ⟨rfl, rfl, rfl⟩ := h
          refine ⟨⟨hinv.shape, hinv.cons, Cache.assign_fits _ hinv.fits, by simp only; rw [hinv.code]⟩, fun hc => ⟨(hcalm hc).1, (hcalm hc).2, fun a ha => ⟨ha, ?_⟩⟩⟩
          rcases x2.cache with _ | _ <;> rfl
        | _ =>
          simp only [Option.some.injEq, Prod.mk.injEq] at h
          obtain ⟨rfl, rfl, rfl⟩ := h
          exact ⟨hinv.setSt _, fun hc => ⟨(hcalm hc).1, (hcalm hc).2, fun a ha => by simp [Out.map] at ha⟩⟩

theorem later_inv (hs : SoundNe D) (hg : g.Retains) (hd : Deps g m us) {x y : Node D W E S} (hx : Inv m us f x) (h : Later g x y) : Inv m us f y := by
  induction h with
  | refl => exact hx
  | call n env env' o _ hc ih => exact (call_inv hs hg hd _ _ _ _ _ _ ih hc).1

/-- The answer of a call that has nothing to do. -/
theorem call_skip (hs : SoundNe D) (hr : ReflNe D) (hg : g.Retains) (hd : Deps g m us) (n : Nat) (x : Node D W E S) (env : Env D W S) (hx : Inv m us f x) (ob : O)
    (hl : LastAllL m ob us x.deps) (he : x.cache.engaged = true) (hsame : ∀ t ∈ us, Val.ne (m.eager ob t) (m.eager (m.obs env.w) t) = false) :
    ∃ ds' env', call g (n + 1) x env = some (answer g x.cache, { x with deps := ds' }, env') ∧ m.obs env'.w = m.obs env.w ∧ ShapeL us ds' ∧
      LastAllL m (m.obs env.w) us ds' ∧ fnCalls env'.log = fnCalls env.log ++ (us.map (m.recalc ob (m.obs env.w))).flatten := by
  obtain ⟨c1, c2, c3, c4⟩ := retains_copies hg
  obtain ⟨rs, ds', env1, hq, hv, hobs, hsh, hlast, hrefl⟩ := hd.eval hs hx.shape hx.cons env
  obtain ⟨h1, h2⟩ := hrefl hr
  have hany : any LazyRes.isChanged rs = false := by
    rw [h1, hl.lastVals, zipWith_flag_map, List.any_eq_false]
    intro b hb
    obtain ⟨t, ht, rfl⟩ := List.mem_map.1 hb
    simp [hsame t ht]
  refine ⟨ds', env1, ?_, hobs, hsh, hlast hg, by rw [h2, expectL_lastAll m ob _ us _ hl]⟩
  simp [call, hq, c2, he, hany]

theorem recalcs_self (hr : ReflNe D) (m : Meaning D W E S O) (ob : O) (us : List (Tree D W E S)) : (us.map (m.recalc ob ob)).flatten = [] := by
  rw [List.flatten_eq_nil_iff]
  intro l hl
  obtain ⟨d, _, rfl⟩ := List.mem_map.1 hl
  exact recalc_self hr m ob d

/-- The function runs while its lazy function has a value: nested calls answer with it. -/
theorem runBody_settled (hs : SoundNe D) (hr : ReflNe D) (hg : g.Retains) (hd : Deps g m us) (n : Nat) (ob : O) (a : Option (Val D)) (b : Body D W E S)
    (hb : Calm m ob b) : ∀ x env, Inv m us f x → LastAllL m ob us x.deps → x.cache.engaged = true → answer (E := E) g x.cache = .ok a →
    ∃ r st x2 env2, runBody g (call g (n + 1)) b x env = some ((match r with | .ok v => .ok v | .error e => .thrown e), st, x2, env2) ∧
      Answered m a b r st env2.w ∧ Inv m us f x2 ∧ LastAllL m ob us x2.deps ∧ x2.cache = x.cache ∧ m.obs env2.w = ob ∧
      fnCalls env2.log = fnCalls env.log := by
  induction hb with
  | done r st w hw =>
    intro x env hx hl he ha
    refine ⟨r, st, x, { env with w := w }, by cases r <;> rfl, .done _ _ _, hx, hl, rfl, hw, rfl⟩
  | again st w k hw _ ih =>
    intro x env hx hl he ha
    obtain ⟨c1, c2, c3, c4⟩ := retains_copies hg
    obtain ⟨ds', env', h1, h2, h3, h4, h5⟩ := call_skip hs hr hg hd n { x with f := { x.f with st := keep (copiesFn g) x.f.st st } } { env with w := w }
      (hx.setSt _) ob hl he (by intro t _; simp only [hw]; exact Val.ne_refl hr _)
    simp only [hw] at h2 h4 h5
    rw [recalcs_self hr, List.append_nil] at h5
    obtain ⟨r, st', x2, env2, q1, q2, q3, q4, q5, q6, q7⟩ := ih (.ok a) st env'.w h2
      { f := { x.f with st := keep (copiesFn g) x.f.st st }, cache := x.cache, deps := ds' } env' ⟨h3, h4.consL, hx.fits, (hx.setSt _).code⟩ h4 he ha
    refine ⟨r, st', x2, env2, ?_, .again _ _ _ _ _ _ _ (h2.trans hw.symm) q2, q3, q4, q5, q6, q7.trans h5⟩
    rw [runBody, h1, ha]
    simp only
    have : keep (copiesFn g) st (keep (copiesFn g) x.f.st st) = st := by cases copiesFn g <;> rfl
    rw [this]
    exact q1

/-- A call of an object that has a value, in which a dependency differs. -/
theorem call_changed (hs : SoundNe D) (hr : ReflNe D) (hg : g.Retains) (hd : Deps g m us) (n : Nat) (x : Node D W E S) (env : Env D W S) (hx : Inv m us f x) (ob : O)
    (hl : LastAllL m ob us x.deps) (he : x.cache.engaged = true) (a : Option (Val D)) (ha : answer (E := E) g x.cache = .ok a)
    (hcalm : ∀ st args w, Calm m (m.obs w) (f.body st args w)) (hdiff : ∃ t ∈ us, Val.ne (m.eager ob t) (m.eager (m.obs env.w) t) = true) :
    ∃ r st w x' env', m.obs w = m.obs env.w ∧ Answered m a (f.body x.f.st (us.map (m.eager (m.obs env.w))) w) r st env'.w ∧
      call g (n + 2) x env = some (outcome f.ret r, x', env') ∧
      fnCalls env'.log = fnCalls env.log ++ (us.map (m.recalc ob (m.obs env.w))).flatten ++ [(f.id, us.map (m.eager (m.obs env.w)))] ∧
      x'.f.st = keep g.regParamByValue x'.f.st st := by
  obtain ⟨c1, c2, c3, c4⟩ := retains_copies hg
  obtain ⟨rs, ds', env1, hq, hv, hobs, hsh, hlast, hrefl⟩ := hd.eval hs hx.shape hx.cons env
  obtain ⟨h1, h2⟩ := hrefl hr
  have hany : any LazyRes.isChanged rs = true := by
    rw [h1, hl.lastVals, zipWith_flag_map, List.any_eq_true]
    obtain ⟨t, ht, hne⟩ := hdiff
    exact ⟨_, List.mem_map.2 ⟨t, ht, rfl⟩, hne⟩
  have hl' := hlast hg
  have hb : x.f.body = f.body := by rw [hx.code]
  have hid : x.f.id = f.id := by rw [hx.code]
  have hret : x.f.ret = f.ret := by rw [hx.code]
  obtain ⟨r, st, x2, env2, q1, q2, q3, q4, q5, q6, q7⟩ := runBody_settled hs hr hg hd n (m.obs env.w) a
    (f.body x.f.st (us.map (m.eager (m.obs env.w))) env1.w) (by rw [← hobs]; exact hcalm _ _ _) { x with deps := ds' } env1
    ⟨hsh, hl'.consL, hx.fits, hx.code⟩ hl' he ha
  have hlog : fnCalls env2.log = fnCalls env.log ++ (us.map (m.recalc ob (m.obs env.w))).flatten := by
    rw [q7, h2, expectL_lastAll m ob _ us _ hl]
  cases r with
  | error e =>
    refine ⟨.error e, st, env1.w, { x2 with f := { x2.f with st := keep (copiesFn g) x2.f.st st } },
      { env2 with log := env2.log ++ [.call .fn x.f.id (us.map (m.eager (m.obs env.w))) x.f.st st] }, hobs, q2, ?_, ?_, ?_⟩
    · rw [call, hq]
      simp only [c2, keep_false, hany, Bool.or_true, if_true, hv, hb, q1, outcome, Out.map]
    · simp [fnCalls_append, hlog, fnCalls, hid]
    · simp only [c4]
      cases g.regParamByValue <;> rfl
  | ok v =>
    refine ⟨.ok v, st, env1.w, { x2 with f := { x2.f with st := keep (copiesFn g) x2.f.st st }, cache := x2.cache.assign (f.ret.regularize v) },
      { env2 with log := env2.log ++ [.call .fn x.f.id (us.map (m.eager (m.obs env.w))) x.f.st st] ++ cmpEvents x2.cache (f.ret.regularize v) },
      hobs, q2, ?_, ?_, ?_⟩
    · rw [call, hq]
      simp only [c2, c3, keep_false, hany, Bool.or_true, if_true, hv, hb, q1, outcome, hret]
      rw [show answer (E := E) g (x2.cache.assign (f.ret.regularize v)) = .ok (result f.ret v) from ?_]
      have : x2.cache = x.cache := q5
      rw [this]
      exact answer_assign g hx.fits ha v
    · simp [fnCalls_append, hlog, fnCalls, hid, (cmpEvents_simple (S := S) x2.cache _).2.2.1]
    · simp only [c4]
      cases g.regParamByValue <;> rfl

omit [CxxData D] in
theorem runBody_mono {self self' : Node D W E S → Env D W S → Option (Out E (Option (Val D)) × Node D W E S × Env D W S)}
    (h : ∀ x env r, self x env = some r → self' x env = some r) (b : Body D W E S) :
    ∀ x env r, runBody g self b x env = some r → runBody g self' b x env = some r := by
  induction b with
  | done r st w =>
    intro x env q hq
    cases r <;> exact hq
  | again st w k ih =>
    intro x env q hq
    rw [runBody] at hq ⊢
    rcases hr : self { x with f := { x.f with st := keep (copiesFn g) x.f.st st } } { env with w := w } with _ | ⟨o, y, e⟩
    · rw [hr] at hq; cases hq
    · rw [hr] at hq
      rw [h _ _ _ hr]
      cases o with
      | ok v => exact ih _ _ _ _ _ _ hq
      | thrown e => exact ih _ _ _ _ _ _ hq
      | _ => exact hq

/-- A call that ends, ends the same with more room. -/
theorem call_mono (g : Glue) : ∀ (n : Nat) (x : Node D W E S) (env : Env D W S) r, call g n x env = some r → call g (n + 1) x env = some r
  | 0, _, _, _, h => by cases h
  | n + 1, x, env, r, h => by
    rw [call] at h ⊢
    rcases he : evalDeps g x.deps env with ⟨o, ds', env1⟩
    rw [he] at h
    cases o with
    | ok rs =>
      simp only at h ⊢
      split
      · rename_i hc
        rw [if_pos hc] at h
        rcases hv : readValues rs with _ | args
        · rw [hv] at h; exact h
        · rw [hv] at h
          simp only at h ⊢
          rcases hb : runBody g (call g n) (x.f.body x.f.st args env1.w) { x with deps := keep (copiesDeps g) x.deps ds' } env1 with _ | q
          · rw [hb] at h; cases h
          · rw [hb] at h
            rw [runBody_mono (call_mono g n) _ _ _ _ hb]
            exact h
      · rename_i hc
        rw [if_neg hc] at h
        exact h
    | _ => exact h

/-- Without a value to answer with, a function that asks its own lazy function does not end. -/
theorem call_bottomless (hs : SoundNe D) (hg : g.Retains ∨ copiesDeps g = true) (hd : Deps g m us) (hasks : f.Asks) :
    ∀ (n : Nat) (x : Node D W E S) (env : Env D W S), ShapeL us x.deps → ConsL m us x.deps → x.f.body = f.body → x.cache.engaged = false → call g n x env = none
  | 0, _, _, _, _, _, _ => rfl
  | n + 1, x, env, h1, h2, hb, he => by
    obtain ⟨rs, ds', env1, hq, hv, hobs, hsh, hlast, _⟩ := hd.eval hs h1 h2 env
    obtain ⟨st', w', k, hk⟩ := hasks x.f.st (us.map (m.eager (m.obs env.w))) env1.w
    have hn : ∀ x' env', ShapeL us x'.deps → ConsL m us x'.deps → x'.f.body = f.body → x'.cache.engaged = false → call g n x' env' = none :=
      fun x' env' => call_bottomless hs hg hd hasks n x' env'
    rw [call, hq]
    simp only [he, Bool.not_false, Bool.true_or, if_true, hv, hb, hk, runBody]
    rw [hn { f := { id := x.f.id, ret := x.f.ret, body := f.body, st := keep (copiesFn g) x.f.st st' }, cache := x.cache, deps := keep (copiesDeps g) x.deps ds' } _ ?_ ?_ rfl he]
    · rcases hg with hg | hg
      · simpa [(retains_copies hg).2.1] using hsh
      · simpa [hg] using h1
    · rcases hg with hg | hg
      · simpa [(retains_copies hg).2.1] using (hlast hg).consL
      · simpa [hg] using h2

end

end Pigro.Re
