import Verif.Model.FinalDesign
import Verif.Spec.FinalDesign
import Verif.Proofs.HistoryFresh
/-!
# The documented design evaluates correctly
-/
namespace Pigro
variable {D W E S O : Type}

/-- The closure type made for a tree. -/
def Tree.fty : Tree D W E S → FTy D W E S
  | .value _ => .value
  | .function c => .facade (.core .dep c [.value])
  | .lazy c ts => .facade (.core .fn c (ts.map Tree.fty))

/-- The value returned at the last evaluation, if any. -/
def FSt.lastVal : FSt D S → Option (Val D)
  | .value v _ => some v
  | .core _ cache _ => cache

section
variable [CxxData D]

mutual
/-- A state of a closure made for the tree, such that every filled cache of a wrapped function holds its value on the last values of its dependencies. -/
def GoodF (m : Meaning D W E S O) : Tree D W E S → FSt D S → Prop
  | .value v, s => s = .value v false
  | .function c, s => c.ret = .val ∧ ∃ st cache, s = .core st cache [.value (.data CxxData.zero) true]
  | .lazy c ts, s => c.ret = .val ∧ ∃ st cache ds, s = .core st cache ds ∧
      (∀ v, cache = some v → ∃ vs, ds.map FSt.lastVal = vs.map some ∧ v = m.fn c vs) ∧ GoodFL m ts ds
/-- Element-wise. -/
def GoodFL (m : Meaning D W E S O) : List (Tree D W E S) → List (FSt D S) → Prop
  | [], ds => ds = []
  | t :: ts, ds => ∃ d ds', ds = d :: ds' ∧ GoodF m t d ∧ GoodFL m ts ds'
end

mutual
/-- Every part was last evaluated at `ob`. -/
def LastF (m : Meaning D W E S O) (ob : O) : Tree D W E S → FSt D S → Prop
  | .value v, s => s.lastVal = some v
  | .function c, s => s.lastVal = some (m.eager ob (.function c))
  | .lazy c ts, s => ∃ st ds, s = .core st (some (m.eager ob (.lazy c ts))) ds ∧ LastFL m ob ts ds
/-- Element-wise. -/
def LastFL (m : Meaning D W E S O) (ob : O) : List (Tree D W E S) → List (FSt D S) → Prop
  | [], ds => ds = []
  | t :: ts, ds => ∃ d ds', ds = d :: ds' ∧ LastF m ob t d ∧ LastFL m ob ts ds'
end

/-- What `is_changed` should be. -/
def flagF (last : Option (Val D)) (v : Val D) : Bool := neCache v last

mutual
/-- Wrapped functions invoked by a call. -/
def expectF (m : Meaning D W E S O) (ob : O) : Tree D W E S → FSt D S → List (Nat × List (Val D))
  | .lazy c ts, .core _ cache ds =>
    expectFL m ob ts ds ++ if cache.isNone || (List.zipWith flagF (ds.map FSt.lastVal) (ts.map (m.eager ob))).any id
      then [(c.id, ts.map (m.eager ob))] else []
  | _, _ => []
/-- List version. -/
def expectFL (m : Meaning D W E S O) (ob : O) : List (Tree D W E S) → List (FSt D S) → List (Nat × List (Val D))
  | t :: ts, d :: ds => expectF m ob t d ++ expectFL m ob ts ds
  | _, _ => []
end

omit [CxxData D] in
theorem LastF.lastVal {m : Meaning D W E S O} {ob : O} {t : Tree D W E S} {s : FSt D S} (h : LastF m ob t s) : s.lastVal = some (m.eager ob t) := by
  cases t with
  | value v => simpa [LastF, Meaning.eager] using h
  | function c => simpa [LastF] using h
  | lazy c ts =>
    simp only [LastF] at h
    obtain ⟨st, ds, rfl, _⟩ := h
    rfl

omit [CxxData D] in
theorem LastFL.lastVals {m : Meaning D W E S O} {ob : O} : ∀ {ts : List (Tree D W E S)} {ds : List (FSt D S)}, LastFL m ob ts ds →
    ds.map FSt.lastVal = (ts.map (m.eager ob)).map some
  | [], ds, h => by simp only [LastFL] at h; subst h; rfl
  | t :: ts, ds, h => by
    simp only [LastFL] at h
    obtain ⟨d, ds', rfl, h1, h2⟩ := h
    simp [h1.lastVal, h2.lastVals]

theorem flagF_self (hr : ReflNe D) (v : Val D) : flagF (some v) v = false := by simp [flagF, neCache, Val.ne_refl hr]

theorem zipWith_flagF_self (hr : ReflNe D) (vs : List (Val D)) : (List.zipWith flagF (vs.map some) vs).any id = false := by
  induction vs with
  | nil => rfl
  | cons v vs ih => simp only [List.map_cons, List.zipWith_cons_cons, List.any_cons, flagF_self hr, ih, id]; rfl

mutual
/-- Nothing is invoked by a call in the situation of the last one. -/
theorem expectF_last (hr : ReflNe D) (m : Meaning D W E S O) (ob : O) : ∀ (t : Tree D W E S) (s : FSt D S), LastF m ob t s → expectF m ob t s = []
  | .value v, s, _ => by simp [expectF]
  | .function c, s, _ => by simp [expectF]
  | .lazy c ts, s, h => by
    simp only [LastF] at h
    obtain ⟨st, ds, rfl, h⟩ := h
    simp only [expectF, expectFL_last hr m ob ts ds h, h.lastVals, zipWith_flagF_self hr]
    simp
theorem expectFL_last (hr : ReflNe D) (m : Meaning D W E S O) (ob : O) : ∀ (ts : List (Tree D W E S)) (ds : List (FSt D S)), LastFL m ob ts ds →
    expectFL m ob ts ds = []
  | [], ds, _ => by simp [expectFL]
  | t :: ts, ds, h => by
    simp only [LastFL] at h
    obtain ⟨d, ds', rfl, h1, h2⟩ := h
    simp [expectFL, expectF_last hr m ob t d h1, expectFL_last hr m ob ts ds' h2]
end

/-- The first `n` last evaluated at `o2`, the others at `o1`. -/
def LastMix (m : Meaning D W E S O) (o1 o2 : O) : Nat → List (Tree D W E S) → List (FSt D S) → Prop
  | 0, ts, ds => LastFL m o1 ts ds
  | _ + 1, [], ds => ds = []
  | n + 1, t :: ts, ds => ∃ d ds', ds = d :: ds' ∧ LastF m o2 t d ∧ LastMix m o1 o2 n ts ds'

/-- Has the value changed? -/
def changedF (m : Meaning D W E S O) (o1 o2 : O) (t : Tree D W E S) : Bool := Val.ne (m.eager o2 t) (m.eager o1 t)

theorem changedF_self (hr : ReflNe D) (m : Meaning D W E S O) (o : O) (t : Tree D W E S) : changedF m o o t = false := Val.ne_refl hr _

theorem polls_lazy (m : Meaning D W E S O) (o1 o2 : O) (c : FnCode D W E S) (ts : List (Tree D W E S)) : m.polls o1 o2 (.lazy c ts) =
    if ts.any (changedF m o1 o2) then ((ts.map (m.polls o1 o2)).take (askedUntil (changedF m o1 o2) ts).length).flatten ++
      (((ts.take (askedUntil (changedF m o1 o2) ts).length).map Tree.leafIds).flatten ++
        ((ts.map (m.polls o1 o2)).drop (askedUntil (changedF m o1 o2) ts).length).flatten)
    else (ts.map (m.polls o1 o2)).flatten := by
  rw [Meaning.polls, ← List.append_assoc]
  rfl

mutual
/-- In the situation of the last call everyone is polled once. -/
theorem polls_self (hr : ReflNe D) (m : Meaning D W E S O) (o : O) : ∀ t : Tree D W E S, m.polls o o t = t.leafIds
  | .value v => by simp [Meaning.polls, Tree.leafIds]
  | .function c => by simp [Meaning.polls, Tree.leafIds]
  | .lazy c ts => by
    rw [polls_lazy, Tree.leafIds, pollsL_self hr m o ts]
    simp [changedF_self hr]
theorem pollsL_self (hr : ReflNe D) (m : Meaning D W E S O) (o : O) : ∀ ts : List (Tree D W E S), ts.map (m.polls o o) = ts.map Tree.leafIds
  | [] => rfl
  | t :: ts => by simp [polls_self hr m o t, pollsL_self hr m o ts]
end

theorem any_changed (m : Meaning D W E S O) (o1 o2 : O) (ts : List (Tree D W E S)) :
    (List.zipWith flagF ((ts.map (m.eager o1)).map some) (ts.map (m.eager o2))).any id = ts.any (changedF m o1 o2) := by
  induction ts with
  | nil => rfl
  | cons t ts ih => simp only [List.any_cons, ← ih, List.map_cons, List.zipWith_cons_cons, id]; rfl

omit [CxxData D] in
theorem askedUntil_all (p : Tree D W E S → Bool) (ts : List (Tree D W E S)) (h : ts.any p = false) : (askedUntil p ts).length = ts.length := by
  induction ts with
  | nil => rfl
  | cons t ts ih =>
    simp only [List.any_cons, Bool.or_eq_false_iff] at h
    simp [askedUntil, h.1, ih h.2]

/-- Everything about one evaluation. -/
def StepF (m : Meaning D W E S O) (t : Tree D W E S) (s : FSt D S) (env : Env D W S) : Prop :=
  ∃ ch s' env', evalF t.fty s env = (.ok (m.eager (m.obs env.w) t, ch), s', env') ∧ (ch = false → s.lastVal = some (m.eager (m.obs env.w) t)) ∧
    m.obs env'.w = m.obs env.w ∧ GoodF m t s' ∧ LastF m (m.obs env.w) t s' ∧
    (ReflNe D → ch = flagF s.lastVal (m.eager (m.obs env.w) t) ∧ fnCalls env'.log = fnCalls env.log ++ expectF m (m.obs env.w) t s ∧
      ∀ o1, LastF m o1 t s → depCalls env'.log = depCalls env.log ++ m.polls o1 (m.obs env.w) t)

/-- About asking for changes. -/
def CheckF (m : Meaning D W E S O) (ts : List (Tree D W E S)) (ds : List (FSt D S)) (env : Env D W S) : Prop :=
  ∃ b ds' env', checkF (ts.map Tree.fty) ds env = (.ok b, ds', env') ∧ m.obs env'.w = m.obs env.w ∧ GoodFL m ts ds' ∧
    (b = false → ds.map FSt.lastVal = (ts.map (m.eager (m.obs env.w))).map some ∧ LastFL m (m.obs env.w) ts ds') ∧
    (ReflNe D → b = (List.zipWith flagF (ds.map FSt.lastVal) (ts.map (m.eager (m.obs env.w)))).any id ∧
      (∃ l, fnCalls env'.log = fnCalls env.log ++ l ∧ l ++ expectFL m (m.obs env.w) ts ds' = expectFL m (m.obs env.w) ts ds) ∧
      ∀ o1, LastFL m o1 ts ds → LastMix m o1 (m.obs env.w) (askedUntil (changedF m o1 (m.obs env.w)) ts).length ts ds' ∧
        depCalls env'.log = depCalls env.log ++
          ((ts.map (m.polls o1 (m.obs env.w))).take (askedUntil (changedF m o1 (m.obs env.w)) ts).length).flatten)

/-- About asking for values. -/
def ValuesF (m : Meaning D W E S O) (ts : List (Tree D W E S)) (ds : List (FSt D S)) (env : Env D W S) : Prop :=
  ∃ ds' env', valuesF (ts.map Tree.fty) ds env = (.ok (ts.map (m.eager (m.obs env.w))), ds', env') ∧ m.obs env'.w = m.obs env.w ∧ GoodFL m ts ds' ∧
    LastFL m (m.obs env.w) ts ds' ∧
    (ReflNe D → fnCalls env'.log = fnCalls env.log ++ expectFL m (m.obs env.w) ts ds ∧
      ∀ o1 n, LastMix m o1 (m.obs env.w) n ts ds → depCalls env'.log = depCalls env.log ++
          (((ts.take n).map Tree.leafIds).flatten ++ ((ts.map (m.polls o1 (m.obs env.w))).drop n).flatten))

omit [CxxData D] in
theorem neCacheEvents_simple (v : Val D) (c : Option (Val D)) :
    fnCalls (neCacheEvents v c : List (Ev D S)) = [] ∧ depCalls (neCacheEvents v c : List (Ev D S)) = [] := by
  cases c <;> simp [neCacheEvents, fnCalls, depCalls]

theorem neCache_false (hs : SoundNe D) {v : Val D} {c : Option (Val D)} (h : neCache v c = false) : c = some v := by
  cases c with
  | none => simp [neCache] at h
  | some x => rw [Val.ne_sound hs _ _ h]

omit [CxxData D] in
theorem eager_lazy (m : Meaning D W E S O) (ob : O) {c : FnCode D W E S} (h : c.ret = .val) (ts : List (Tree D W E S)) :
    m.eager ob (.lazy c ts) = m.fn c (ts.map (m.eager ob)) := by simp [Meaning.eager, h, RetTy.regularize]

omit [CxxData D] in
theorem eager_function (m : Meaning D W E S O) (ob : O) {c : FnCode D W E S} (h : c.ret = .val) :
    m.eager ob (.function c) = m.leaf c ob := by simp [Meaning.eager, h, RetTy.regularize]

omit [CxxData D] in
/-- The end of `lazy_core`: `f` is called. -/
theorem evalF_tail {m : Meaning D W E S O} {c : FnCode D W E S} (hf : m.FnOk c) (st : S) (args : List (Val D)) (env : Env D W S) :
    ∃ st' env', callF .fn c st args env = (.ok (m.fn c args), st', env') ∧ m.obs env'.w = m.obs env.w ∧ fnCalls env'.log = fnCalls env.log ++ [(c.id, args)] ∧
      depCalls env'.log = depCalls env.log := by
  obtain ⟨h1, h2⟩ := hf st args env.w
  refine ⟨(c.run st args env.w).2.1, ⟨(c.run st args env.w).2.2, env.log ++ [.call .fn c.id args st (c.run st args env.w).2.1]⟩, ?_, h2, ?_, ?_⟩
  · simp only [callF, h1]
  · simp [fnCalls]
  · simp [depCalls]

theorem goodF_of_last {m : Meaning D W E S O} {ob : O} {c : FnCode D W E S} {ts : List (Tree D W E S)} {ds : List (FSt D S)} (hret : c.ret = .val)
    (hg : GoodFL m ts ds) (hl : LastFL m ob ts ds) (st : S) :
    GoodF m (.lazy c ts) (.core st (some (m.eager ob (.lazy c ts))) ds) ∧ LastF m ob (.lazy c ts) (.core st (some (m.eager ob (.lazy c ts))) ds) := by
  refine ⟨?_, ?_⟩
  · simp only [GoodF]
    refine ⟨hret, st, _, ds, rfl, ?_, hg⟩
    intro v hv
    simp only [Option.some.injEq] at hv
    exact ⟨_, hl.lastVals, by rw [← hv, eager_lazy m ob hret]⟩
  · simp only [LastF]
    exact ⟨st, ds, rfl, hl⟩

mutual
theorem evalF_ok (hs : SoundNe D) (m : Meaning D W E S O) : ∀ (t : Tree D W E S) (s : FSt D S) (env : Env D W S), m.Ok t → GoodF m t s → StepF m t s env
  | .value v, s, env, _, hg => by
    simp only [GoodF] at hg
    subst hg
    refine ⟨false, .value v false, env, by simp [Tree.fty, evalF, Meaning.eager], fun _ => by simp [FSt.lastVal, Meaning.eager], rfl, by simp [GoodF],
      by simp [LastF, FSt.lastVal], fun hr => ⟨by simp [FSt.lastVal, Meaning.eager, flagF_self hr], by simp [expectF], fun o1 _ => by simp [Meaning.polls]⟩⟩
  | .function c, s, env, hok, hg => by
    simp only [GoodF] at hg
    obtain ⟨hret, st, cache, rfl⟩ := hg
    have hlf : m.LeafOk c := by cases hok; assumption
    obtain ⟨h1, h2⟩ := hlf st env.w
    have hcall : ∀ (args : List (Val D)), callF .dep c st args env = (.ok (m.eager (m.obs env.w) (.function c)), (c.run st [] env.w).2.1,
        ⟨(c.run st [] env.w).2.2, env.log ++ [.call .dep c.id [] st (c.run st [] env.w).2.1]⟩) := by
      intro args
      simp only [callF, h1, eager_function m _ hret]
    have hev : evalF (Tree.function c).fty (.core st cache [.value (.data CxxData.zero) true]) env =
        (.ok (m.eager (m.obs env.w) (.function c), neCache (m.eager (m.obs env.w) (.function c)) cache),
          .core (c.run st [] env.w).2.1 (some (m.eager (m.obs env.w) (.function c))) [.value (.data CxxData.zero) true],
          ⟨(c.run st [] env.w).2.2, (env.log ++ [.call .dep c.id [] st (c.run st [] env.w).2.1]) ++ neCacheEvents (m.eager (m.obs env.w) (.function c)) cache⟩) := by
      cases cache <;> simp [Tree.fty, evalF, checkF, valuesF, Out.map, hcall]
    refine ⟨_, _, _, hev, neCache_false hs, h2, ?_, ?_, fun hr => ⟨rfl, ?_, fun o1 _ => ?_⟩⟩
    · simp only [GoodF]
      exact ⟨hret, _, _, rfl⟩
    · simp [LastF, FSt.lastVal]
    · simp [expectF, fnCalls, (neCacheEvents_simple (S := S) _ cache).1]
    · simp [depCalls, (neCacheEvents_simple (S := S) _ cache).2, Meaning.polls]
  | .lazy c ts, s, env, hok, hg => by
    simp only [GoodF] at hg
    obtain ⟨hret, st, cache, ds, rfl, hcache, hgd⟩ := hg
    have hfn : m.FnOk c := by cases hok; assumption
    have hoks : ∀ t ∈ ts, m.Ok t := by cases hok; assumption
    -- asking for values and calling `f`, from any state of the dependencies
    have hrun : ∀ (ds1 : List (FSt D S)) (env1 : Env D W S), GoodFL m ts ds1 → m.obs env1.w = m.obs env.w →
        ∃ st' ds2 env2, (match valuesF (ts.map Tree.fty) ds1 env1 with
          | (.ok args, ds2, env2) =>
            match callF .fn c st args env2 with
            | (.ok r, st', env3) => (.ok (r, neCache r cache), .core st' (some r) ds2, { env3 with log := env3.log ++ neCacheEvents r cache })
            | (.error e, st', env3) => (.thrown e, .core st' cache ds2, env3)
          | (o, ds2, env2) => (o.map (fun _ => (.rvoid, false)), .core st cache ds2, env2) : Out E (Val D × Bool) × FSt D S × Env D W S) =
          (.ok (m.eager (m.obs env.w) (.lazy c ts), neCache (m.eager (m.obs env.w) (.lazy c ts)) cache),
            .core st' (some (m.eager (m.obs env.w) (.lazy c ts))) ds2, env2) ∧ m.obs env2.w = m.obs env.w ∧ GoodFL m ts ds2 ∧ LastFL m (m.obs env.w) ts ds2 ∧
          (ReflNe D → fnCalls env2.log = fnCalls env1.log ++ (expectFL m (m.obs env.w) ts ds1 ++ [(c.id, ts.map (m.eager (m.obs env.w)))]) ∧
            ∀ o1 n, LastMix m o1 (m.obs env.w) n ts ds1 → depCalls env2.log = depCalls env1.log ++
              (((ts.take n).map Tree.leafIds).flatten ++ ((ts.map (m.polls o1 (m.obs env.w))).drop n).flatten)) := by
      intro ds1 env1 hg1 ho1
      obtain ⟨ds2, env2, v1, v2, v3, v4, v5⟩ := valuesF_ok hs m ts ds1 env1 hoks hg1
      rw [ho1] at v1 v4 v5
      obtain ⟨st', env3, c1, c2, c3, c4⟩ := evalF_tail hfn st (ts.map (m.eager (m.obs env.w))) env2
      rw [← eager_lazy m _ hret] at c1
      refine ⟨st', ds2, _, by simp only [v1, c1]; rfl, by simp only [c2, v2, ho1], v3, v4, fun hr => ⟨?_, fun o1 n hmix => ?_⟩⟩
      · simp [c3, (v5 hr).1, (neCacheEvents_simple (S := S) _ cache).1]
      · simp only [depCalls_append, c4, (neCacheEvents_simple (S := S) _ cache).2, List.append_nil]
        exact (v5 hr).2 o1 n hmix
    cases hc : cache with
    | none =>
      subst hc
      obtain ⟨st', ds2, env2, r1, r2, r3, r4, r5⟩ := hrun ds env hgd rfl
      obtain ⟨q1, q2⟩ := goodF_of_last hret r3 r4 st'
      refine ⟨_, _, _, by simp only [Tree.fty, evalF]; exact r1, neCache_false hs, r2, q1, q2, fun hr => ⟨rfl, ?_, fun o1 hl => ?_⟩⟩
      · simp [expectF, (r5 hr).1]
      · simp only [LastF, FSt.core.injEq] at hl
        obtain ⟨_, _, ⟨_, h, _⟩, _⟩ := hl
        cases h
    | some v =>
      subst hc
      obtain ⟨b, ds1, env1, k1, k2, k3, k4, k5⟩ := checkF_ok hs m ts ds env hoks hgd
      cases b with
      | true =>
        obtain ⟨st', ds2, env2, r1, r2, r3, r4, r5⟩ := hrun ds1 env1 k3 k2
        obtain ⟨q1, q2⟩ := goodF_of_last hret r3 r4 st'
        refine ⟨_, _, _, by simp only [Tree.fty, evalF, k1]; exact r1, neCache_false hs, r2, q1, q2, fun hr => ⟨rfl, ?_, fun o1 hl => ?_⟩⟩
        · obtain ⟨b1, ⟨l, b2, b3⟩, _⟩ := k5 hr
          rw [(r5 hr).1, b2, List.append_assoc, ← List.append_assoc l, b3]
          simp only [expectF, ← b1, Bool.or_true, if_true]
        · simp only [LastF, FSt.core.injEq] at hl
          obtain ⟨_, _, ⟨_, _, rfl⟩, hl⟩ := hl
          obtain ⟨b1, _, b4⟩ := k5 hr
          obtain ⟨b5, b6⟩ := b4 o1 hl
          rw [(r5 hr).2 o1 _ b5, b6, polls_lazy]
          have : ts.any (changedF m o1 (m.obs env.w)) = true := by
            rw [b1, hl.lastVals, any_changed]
          simp [this]
      | false =>
        obtain ⟨hl1, hl2⟩ := k4 rfl
        obtain ⟨vs, hvs1, hvs2⟩ := hcache v rfl
        have hvseq : vs = ts.map (m.eager (m.obs env.w)) :=
          (List.map_inj_right (fun _ _ h => Option.some.inj h)).1 (hvs1.symm.trans hl1)
        have hve : v = m.eager (m.obs env.w) (.lazy c ts) := by rw [hvs2, hvseq, eager_lazy m _ hret]
        subst hve
        obtain ⟨q1, q2⟩ := goodF_of_last hret k3 hl2 st
        refine ⟨false, _, _, by simp only [Tree.fty, evalF, k1], fun _ => rfl, k2, q1, q2, fun hr => ⟨(flagF_self hr _).symm, ?_, fun o1 hl => ?_⟩⟩
        · obtain ⟨b1, ⟨l, b2, b3⟩, _⟩ := k5 hr
          rw [expectFL_last hr m _ ts ds1 hl2, List.append_nil] at b3
          rw [b2, b3]
          simp only [expectF, Option.isNone_some, Bool.false_or, ← b1]
          simp
        · simp only [LastF, FSt.core.injEq] at hl
          obtain ⟨_, _, ⟨_, _, rfl⟩, hl⟩ := hl
          obtain ⟨b1, _, b4⟩ := k5 hr
          obtain ⟨b5, b6⟩ := b4 o1 hl
          have h0 : ts.any (changedF m o1 (m.obs env.w)) = false := by
            rw [b1, hl.lastVals, any_changed]
          have h1 : (askedUntil (changedF m o1 (m.obs env.w)) ts).length = ts.length := askedUntil_all _ ts h0
          rw [b6, polls_lazy, h0, h1]
          simp [List.take_of_length_le]
theorem checkF_ok (hs : SoundNe D) (m : Meaning D W E S O) : ∀ (ts : List (Tree D W E S)) (ds : List (FSt D S)) (env : Env D W S), (∀ t ∈ ts, m.Ok t) →
    GoodFL m ts ds → CheckF m ts ds env
  | [], ds, env, _, hg => by
    simp only [GoodFL] at hg
    subst hg
    exact ⟨false, [], env, by simp [checkF], rfl, by simp [GoodFL], fun _ => by simp [LastFL], fun hr => ⟨by simp, ⟨[], by simp, by simp⟩,
      fun o1 _ => by simp [askedUntil, LastMix, LastFL]⟩⟩
  | t :: ts, ds, env, hok, hg => by
    simp only [GoodFL] at hg
    obtain ⟨d, ds', rfl, hg1, hg2⟩ := hg
    obtain ⟨ch, d', env1, e1, e2, e3, e4, e5, e6⟩ := evalF_ok hs m t d env (hok t (by simp)) hg1
    cases ch with
    | true =>
      refine ⟨true, d' :: ds', env1, by simp [checkF, e1], e3, by simp only [GoodFL]; exact ⟨_, _, rfl, e4, hg2⟩, by simp, fun hr => ?_⟩
      obtain ⟨f1, f2, f3⟩ := e6 hr
      refine ⟨?_, ⟨_, f2, ?_⟩, fun o1 hl => ?_⟩
      · simp [← f1]
      · simp [expectFL, expectF_last hr m _ t d' e5]
      · simp only [LastFL] at hl
        obtain ⟨_, _, heq, hl1, hl2⟩ := hl
        simp only [List.cons.injEq] at heq
        obtain ⟨rfl, rfl⟩ := heq
        have hch : changedF m o1 (m.obs env.w) t = true := by
          rw [hl1.lastVal] at f1
          exact f1.symm
        simp only [askedUntil, hch, if_true, List.length_singleton]
        refine ⟨?_, ?_⟩
        · simp only [LastMix]
          exact ⟨_, _, rfl, e5, hl2⟩
        · simp [f3 o1 hl1]
    | false =>
      obtain ⟨b, ds2, env2, k1, k2, k3, k4, k5⟩ := checkF_ok hs m ts ds' env1 (fun t ht => hok t (by simp [ht])) hg2
      rw [e3] at k2 k4 k5
      refine ⟨b, d' :: ds2, env2, by simp [checkF, e1, k1], k2, by simp only [GoodFL]; exact ⟨_, _, rfl, e4, k3⟩, fun hb => ?_, fun hr => ?_⟩
      · obtain ⟨l1, l2⟩ := k4 hb
        refine ⟨by simp [e2 rfl, l1], ?_⟩
        simp only [LastFL]
        exact ⟨_, _, rfl, e5, l2⟩
      · obtain ⟨f1, f2, f3⟩ := e6 hr
        obtain ⟨b1, ⟨l, b2, b3⟩, b4⟩ := k5 hr
        refine ⟨?_, ⟨expectF m (m.obs env.w) t d ++ l, by rw [b2, f2, List.append_assoc], ?_⟩, fun o1 hl => ?_⟩
        · simp only [List.map_cons, List.zipWith_cons_cons, List.any_cons, ← f1, ← b1, id, Bool.false_or]
        · simp [expectFL, expectF_last hr m _ t d' e5, b3]
        · simp only [LastFL] at hl
          obtain ⟨_, _, heq, hl1, hl2⟩ := hl
          simp only [List.cons.injEq] at heq
          obtain ⟨rfl, rfl⟩ := heq
          have hch : changedF m o1 (m.obs env.w) t = false := by
            rw [hl1.lastVal] at f1
            exact f1.symm
          obtain ⟨b5, b6⟩ := b4 o1 hl2
          simp only [askedUntil, hch, Bool.false_eq_true, if_false, List.length_cons]
          refine ⟨?_, ?_⟩
          · simp only [LastMix]
            exact ⟨_, _, rfl, e5, b5⟩
          · rw [b6, f3 o1 hl1]
            simp
theorem valuesF_ok (hs : SoundNe D) (m : Meaning D W E S O) : ∀ (ts : List (Tree D W E S)) (ds : List (FSt D S)) (env : Env D W S), (∀ t ∈ ts, m.Ok t) →
    GoodFL m ts ds → ValuesF m ts ds env
  | [], ds, env, _, hg => by
    simp only [GoodFL] at hg
    subst hg
    exact ⟨[], env, by simp [valuesF], rfl, by simp [GoodFL], by simp [LastFL], fun hr => ⟨by simp [expectFL], fun o1 n _ => by simp⟩⟩
  | t :: ts, ds, env, hok, hg => by
    simp only [GoodFL] at hg
    obtain ⟨d, ds', rfl, hg1, hg2⟩ := hg
    obtain ⟨ch, d', env1, e1, e2, e3, e4, e5, e6⟩ := evalF_ok hs m t d env (hok t (by simp)) hg1
    obtain ⟨ds2, env2, k1, k2, k3, k4, k5⟩ := valuesF_ok hs m ts ds' env1 (fun t ht => hok t (by simp [ht])) hg2
    rw [e3] at k1 k2 k4 k5
    refine ⟨d' :: ds2, env2, by simp [valuesF, e1, k1, Out.map], k2, by simp only [GoodFL]; exact ⟨_, _, rfl, e4, k3⟩,
      by simp only [LastFL]; exact ⟨_, _, rfl, e5, k4⟩, fun hr => ?_⟩
    obtain ⟨f1, f2, f3⟩ := e6 hr
    obtain ⟨b1, b2⟩ := k5 hr
    refine ⟨by simp [expectFL, b1, f2], fun o1 n hmix => ?_⟩
    cases n with
    | zero =>
      simp only [LastMix, LastFL] at hmix
      obtain ⟨_, _, heq, hl1, hl2⟩ := hmix
      simp only [List.cons.injEq] at heq
      obtain ⟨rfl, rfl⟩ := heq
      have := b2 o1 0 (by simpa only [LastMix] using hl2)
      rw [this, f3 o1 hl1]
      simp
    | succ n =>
      simp only [LastMix] at hmix
      obtain ⟨_, _, heq, hl1, hl2⟩ := hmix
      simp only [List.cons.injEq] at heq
      obtain ⟨rfl, rfl⟩ := heq
      rw [b2 o1 n hl2, f3 _ hl1, polls_self hr]
      simp
end

end

end Pigro
