import Verif.Props.LazyB
import Verif.Proofs.Replay
/-!
# C14, C15, C17 – C21, C50, C51: exceptions, arguments, effects, own state, classification
-/
namespace Pigro
open Demo
variable {D W E S O : Type} [CxxData D]

/-! ### C14, C50: exceptions and cached values -/

/-- **C14** (first part, any glue, arbitrary functions). When a call throws, the value cached by the
called object is unchanged. -/
theorem C14_throw_keeps_cache (g : Glue) (w : W) (ops : List (Op D W E S)) (i : Nat)
    (t : Tree D W E S) (ht : (runTrees [] ops)[i]? = some t) (e : E)
    (hthrow : (step g (after g w ops) (.call i)).1 = .ret (.thrown e)) :
    ∃ o o', (after g w ops).vars[i]? = some o ∧
      (step g (after g w ops) (.call i)).2.vars[i]? = some o' ∧ o'.lastVal = o.lastVal := by
  obtain ⟨o, c, us, ho, rfl, hsh⟩ := vars_of_tree g w ops i t ht
  rw [step_call g _ i o ho] at hthrow ⊢
  simp only [Obs.ret.injEq] at hthrow
  refine ⟨o, _, ho, set_get _ _ _ _ ho, ?_⟩
  have hth := ((call0_result g c us o _ hsh).2.1 e).1 hthrow
  rw [call0_obj g c us o _ hsh]
  exact evalN_throw_lastVal g c us o _ hsh (by rw [hth]; rfl) (by rw [hth]; rfl)

/-- **C14** (exception propagates; any glue). If a call gets past its dependencies and the wrapped
function, invoked because nothing is cached or a dependency reports a change, throws `x`, then the call
throws `x`. -/
theorem C14_exception_reaches_caller (g : Glue) (w : W) (ops : List (Op D W E S)) (i : Nat)
    (f : UFn D W E S) (cache : Cache D) (ds : List (Obj D W E S))
    (ho : (after g w ops).vars[i]? =
      some (.unregularized (.unwrapped (.core (.regularized f) cache ds))))
    (rs : List (LazyRes D)) (ds' : List (Obj D W E S)) (env1 : Env D W S)
    (he : evalDeps g ds (after g w ops).env = (.ok rs, ds', env1)) (hl : ∀ r ∈ rs, r.live = true)
    (hfire : cache.val? = none ∨ ∃ r ∈ rs, r.isChanged = true) (x : E)
    (hx : (f.run f.st (tupleCTAD Val.asTuple (rs.map LazyRes.value)) env1.w).1 = .error x) :
    (step g (after g w ops) (.call i)).1 = .ret (.thrown x) := by
  rw [step_call g _ i _ ho, call0_facade, evalN_core_ok g _ _ _ _ he]
  have hch : (!cache.engaged || any LazyRes.isChanged rs) = true := by
    rw [any_eq, Cache.engaged_val?]
    rcases hfire with h | ⟨r, hr, h⟩
    · simp [h]
    · simp only [Bool.or_eq_true, List.any_eq_true]
      exact .inr ⟨r, hr, h⟩
  have hrv : readValues rs = some (tupleCTAD Val.asTuple (rs.map LazyRes.value)) := by
    simp only [readValues]
    rw [if_pos (by simpa using hl), transform_eq]
  have : (coreTail g (.regularized f) cache rs env1).1 = .thrown x := by
    simp only [coreTail, hch, if_true, hrv, Fun.call, UFn.invoke, hx, Out.map]
  simp only [this]

/-- `lazy(picky, rd)` in world -1. -/
example : (step Glue.retained (after Glue.retained (-1) [.mk picky [.function rd]]
    : State Int Int Nat Nat) (.call 0)).1 = .ret (.thrown 7) :=
  C14_exception_reaches_caller Glue.retained (-1) [.mk picky [.function rd]] 0 picky _ _ rfl _ _ _ rfl
    (by decide) (.inl rfl) 7 rfl

/-- **C14** (second part, partial: nothing cached before). If the wrapped function throws at a call of
an object that holds no value, nothing is cached, and the next call that gets past the dependencies
invokes it again. Any glue, arbitrary functions. Missing: objects that already hold a value; there the
claim is false, see `C14_stale_after_throw`. -/
theorem C14_first_throw_reevaluates_partial (g : Glue) (w : W) (ops : List (Op D W E S)) (i : Nat)
    (c : FnCode D W E S) (us : List (Tree D W E S))
    (ht : (runTrees [] ops)[i]? = some (.lazy c us)) (hsafe : g.SafeFor (.lazy c us)) (e : E)
    (hempty : ∀ o, (after g w ops).vars[i]? = some o → o.lastVal = none)
    (hthrow : (step g (after g w ops) (.call i)).1 = .ret (.thrown e)) (h : W → W) :
    let s2 := (step g (step g (after g w ops) (.call i)).2 (.poke h)).2
    ∀ v, (step g s2 (.call i)).1 = .ret (.ok v) →
      ∃ new args, fnCalls (step g s2 (.call i)).2.env.log = fnCalls s2.env.log ++ new ++ [(c.id, args)] := by
  intro s2 v hv
  obtain ⟨o, o', ho, ho', hlast⟩ := C14_throw_keeps_cache g w ops i _ ht e hthrow
  rw [hempty o ho] at hlast
  have ho2 : s2.vars[i]? = some o' := ho'
  have hsh : Shape (.lazy c us) o' := by
    obtain ⟨o1, c', us', ho1, heq, hsh⟩ := vars_of_tree g w (ops ++ [.call i]) i (.lazy c us)
      (by rw [runTrees_append]; exact runTrees_get _ _ i _ ht)
    cases heq
    have : (run g (State.init w) (ops ++ [.call i])).2 = (step g (after g w ops) (.call i)).2 := by
      simp only [run_append, run]
    rw [this, ho'] at ho1
    cases ho1
    exact hsh
  rw [step_call g s2 i o' ho2] at hv ⊢
  simp only [Obs.ret.injEq] at hv
  simp only
  obtain ⟨r, hre, -⟩ := (call0_result g c us o' s2.env hsh).1 v hv
  rw [call0_obj g c us o' s2.env hsh]
  exact evalN_empty_invokes g c us o' s2.env hsh hsafe hlast r hre

/-- Function `picky` throws for negative arguments: it is tried in world -1, then runs in world 3. -/
example : (run Glue.retained (State.init (-1)) [.mk picky [.function rd], .call 0, .poke (fun _ => 3),
      .call 0] : _ × State Int Int Nat Nat).1 =
    [.unit, .ret (.thrown 7), .unit, .ret (.ok (some (.data 3)))] := rfl

example : ∃ new args, fnCalls (step Glue.retained (step Glue.retained (step Glue.retained
      (after Glue.retained (-1) [.mk picky [.function rd]] : State Int Int Nat Nat) (.call 0)).2
        (.poke (fun _ => 3))).2 (.call 0)).2.env.log =
    [(6, [.data (-1)])] ++ new ++ [(6, args)] :=
  C14_first_throw_reevaluates_partial Glue.retained (-1) [.mk picky [.function rd]] 0 picky.toFnCode
    [.function rd.toFnCode] rfl (.inl rfl) 7 (by intro o ho; cases ho; rfl) rfl (fun _ => 3)
    (some (.data 3)) rfl

/-- **C14 is false** for every glue that keeps everything: after a value was cached and the function
then threw, the next call with the same dependency values returns the value cached before the failure
instead of invoking the function again. -/
theorem C14_stale_after_throw (g : Glue) (hg : g.Retains) (hr : g.resultByRef = false) :
    let p := run g (State.init 3) [.mk picky [.function rd], .call 0, .poke (fun _ => -1), .call 0,
      .call 0]
    (p : _ × State Int Int Nat Nat).1 = [.unit, .ret (.ok (some (.data 3))), .unit,
      .ret (.thrown 7), .ret (.ok (some (.data 3)))] := by
  obtain ⟨a, b, c, d, e1, e2, e3, e4⟩ := g
  obtain ⟨ha, hb, hc, hd⟩ := hg
  simp only at ha hb hc hd hr
  subst ha hb hc hd hr
  cases e1 <;> cases e2 <;> cases e3 <;> rfl

/-- The glue of the documented design is one of them. -/
example : Glue.retained.Retains ∧ Glue.retained.resultByRef = false := ⟨⟨rfl, rfl, rfl, rfl⟩, rfl⟩

/-- **C50 is false** for every glue that keeps everything. `lazy(sum, half, oddZero)` is called in world
2; in world 5 `half` changes and `oddZero` throws; in world 4 `half` has the value it had in world 5 and
`oddZero` works again: the call returns the value of world 2. -/
theorem C50_stale_after_dependency_throw (g : Glue) (hg : g.Retains) (hr : g.resultByRef = false) :
    let p := run g (State.init 2) [.mk sum [.function half, .function oddZero], .call 0,
      .poke (fun _ => 5), .call 0, .poke (fun _ => 4), .call 0]
    (p : _ × State Int Int Nat Nat).1 = [.unit, .ret (.ok (some (.data 1))), .unit,
      .ret (.thrown 9), .unit, .ret (.ok (some (.data 1)))] ∧
    canon.result 4 (.lazy sum.toFnCode [.function half.toFnCode, .function oddZero.toFnCode] : T) =
      some (.data 2) := by
  obtain ⟨a, b, c, d, e1, e2, e3, e4⟩ := g
  obtain ⟨ha, hb, hc, hd⟩ := hg
  simp only at ha hb hc hd hr
  subst ha hb hc hd hr
  refine ⟨?_, by
    simp [Meaning.result, Meaning.eager, canon, sum, half, oddZero, RetTy.regularize, toInt]⟩
  cases e1 <;> cases e2 <;> cases e3 <;> rfl

/-! ### C15 -/

/-- **C15**, any glue, arbitrary functions. `before`, `d`, `later` are the dependency objects of
variable `i`. If evaluating `before` succeeds and `d` then throws `e`: the call throws `e`, nothing
happens after `d` (no event, no change of the world), `later` and the cached value are as they were. -/
theorem C15_dependency_throws (g : Glue) (w : W) (ops : List (Op D W E S)) (i : Nat)
    (f : UFn D W E S) (cache : Cache D) (before later : List (Obj D W E S)) (d : Obj D W E S)
    (ho : (after g w ops).vars[i]? =
      some (.unregularized (.unwrapped (.core (.regularized f) cache (before ++ d :: later)))))
    (rs : List (LazyRes D)) (before' : List (Obj D W E S)) (env1 env2 : Env D W S) (d' : Obj D W E S)
    (e : E) (hb : evalDeps g before (after g w ops).env = (.ok rs, before', env1))
    (hd : evalN g d env1 = (.thrown e, d', env2)) :
    (step g (after g w ops) (.call i)).1 = .ret (.thrown e) ∧
    (step g (after g w ops) (.call i)).2.env = env2 ∧
    ∃ ds, (step g (after g w ops) (.call i)).2.vars[i]? =
        some (.unregularized (.unwrapped (.core (.regularized f) cache ds))) ∧
      (ds = before ++ d :: later ∨ ds = before' ++ d' :: later) := by
  have hdeps := evalDeps_throw g before later d _ rs before' env1 env2 d' e hb hd
  have hcore := evalN_core_fail g (.regularized f) cache _ _ hdeps rfl
  rw [step_call g _ i _ ho, call0_facade, hcore]
  refine ⟨rfl, rfl, ?_⟩
  cases g.coreParamsByValue <;> cases (g.facadeParamByValue || g.unwrapParamByValue)
  · exact ⟨_, set_get _ _ _ _ ho, .inr rfl⟩
  all_goals exact ⟨_, set_get _ _ _ _ ho, .inl rfl⟩

/-- `lazy(sum, rd, odd, half)` in world 5: `rd` runs, `odd` throws, `half` and `sum` do not run. -/
example : calls (after Glue.retained 5 [.mk sum [.function rd, .function odd, .function half], .call 0]
      : State Int Int Nat Nat).env.log = [1, 8] ∧
    (run Glue.retained (State.init 5) [.mk sum [.function rd, .function odd, .function half], .call 0]
      : _ × State Int Int Nat Nat).1 = [.unit, .ret (.thrown 9)] := ⟨rfl, rfl⟩

/-! ### C17 -/

/-- **C17** (partial: not for a single tuple). Whenever a call invokes the wrapped function of the called
variable, the arguments are the values of the dependencies' results, one per dependency, in order: `rs`
are the results of evaluating the dependencies `ds` one after another. Any glue, arbitrary functions. -/
theorem C17_arguments_as_is_partial (g : Glue) (w : W) (ops : List (Op D W E S)) (i : Nat)
    (c : FnCode D W E S) (us : List (Tree D W E S))
    (ht : (runTrees [] ops)[i]? = some (.lazy c us)) :
    ∃ f cache ds, f.toFnCode = c ∧ ds.length = us.length ∧
      (after g w ops).vars[i]? = some (.unregularized (.unwrapped (.core (.regularized f) cache ds))) ∧
      let s := after g w ops
      let e := evalDeps g ds s.env
      ∀ rs, e.1 = .ok rs → (∀ r ∈ rs, r.live = true) →
        (∀ r, rs = [r] → ∀ xs, r.value ≠ .tup xs) →
        InOrder (fun d (e : Env D W S) => ((evalN g d e).1, (evalN g d e).2.2)) ds s.env rs e.2.2 ∧
        (fnCalls (step g s (.call i)).2.env.log = fnCalls e.2.2.log ∨
        fnCalls (step g s (.call i)).2.env.log =
          fnCalls e.2.2.log ++ [(c.id, rs.map LazyRes.value)]) := by
  obtain ⟨f, cache, ds, hf, ho, hds, h⟩ := C06_runs_iff_changed g w ops i c us ht
  refine ⟨f, cache, ds, hf, hds.length.symm, ho, ?_⟩
  intro s e rs hrs hl hlone
  obtain ⟨-, h⟩ := h
  obtain ⟨h1, h2, -, -⟩ := h rs hrs hl
  refine ⟨evalDeps_inOrder g ds s.env rs hrs, ?_⟩
  have hargs : tupleCTAD Val.asTuple (rs.map LazyRes.value) = rs.map LazyRes.value := by
    apply tupleCTAD_id
    intro x hx
    match rs, hx with
    | [r], hx =>
      simp only [List.map_cons, List.map_nil, List.cons.injEq, and_true] at hx
      subst hx
      have := hlone r rfl
      cases hv : r.value with
      | tup xs => exact absurd hv (this xs)
      | _ => rfl
  by_cases hfi : cache.val? = none ∨ ∃ r ∈ rs, r.isChanged = true
  · right
    rw [h1 hfi, hargs]
  · left
    rw [h2 hfi]

/-- Two dependencies, one of them a tuple: passed as it is. -/
example : fnCalls (after Glue.retained 5 [.mk count [.value (.tup [.data 1, .data 2]), .function rd],
      .call 0] : State Int Int Nat Nat).env.log =
    [(11, [.tup [.data 1, .data 2], .data 5])] := rfl

/-- **C17 is false** for a single dependency with a tuple value: for every function and every tuple,
the function is invoked with the elements. (Any glue without dangling results.) -/
theorem C17_lone_tuple_unpacked (g : Glue) (hr : g.resultByRef = false) (f : UFn D W E S)
    (xs : List (Val D)) (w : W) :
    fnCalls (after g w [.mk f [.value (.tup xs)], .call 0]).env.log = [(f.id, xs)] := by
  have hmk := mk_const g (State.init w) f [.tup xs]
  simp only [List.map_cons, List.map_nil] at hmk
  simp only [after, run, hmk]
  have ho : (State.mk ((State.init w : State D W E S).vars ++
      [constNode f (Cache.empty f.ret) [.tup xs]]) (State.init w : State D W E S).env).vars[0]? =
      some (constNode f (Cache.empty f.ret) [.tup xs]) := rfl
  rw [step_call g _ 0 _ ho, constNode, call0_facade, evalN_core_ok g _ _ _ _ (evalDeps_const g _ _)]
  have := (coreTail_exact g f (Cache.empty f.ret)
    [⟨.tup xs, false, !(g.resultByRef && g.valueParamByValue)⟩] ⟨w, []⟩ (Cache.empty_fits _)
    (by simp [hr])).1
  simp only [Cache.empty_val?] at this
  simpa [State.init, fnCalls, tupleCTAD, Val.asTuple] using this

example : fnCalls (after Glue.retained 0 [.mk count [.value (.tup [.data 1, .data 2])], .call 0]
    : State Int Int Nat Nat).env.log = [(11, [.data 1, .data 2])] :=
  C17_lone_tuple_unpacked Glue.retained rfl count _ 0

/-! ### C51 -/

/-- **C51.** In any history, the effects of an operation on the world are exactly those of the recorded
invocations, each run once, in order, with the recorded arguments and own state; constructing and
copying have no effects. Any glue, arbitrary functions. `code` names the functions of the program. -/
theorem C51_effects_are_the_invocations (code : Nat → FnCode D W E S) (g : Glue) (w : W)
    (ops : List (Op D W E S)) (hc : ∀ t ∈ runTrees [] ops, t.CodedBy code) (op : Op D W E S) :
    let s := after g w ops
    let s' := (step g s op).2
    match op with
    | .mk _ _ => s'.env = s.env
    | .copy _ => s'.env = s.env
    | .poke h => s'.env = ⟨h s.env.w, s.env.log⟩
    | _ => ∃ evs, s'.env.log = s.env.log ++ evs ∧ Replays code s.env.w evs s'.env.w := by
  intro s s'
  cases op with
  | mk f deps =>
    simp only [s', step]
    split <;> rfl
  | copy j =>
    simp only [s', step]
    split <;> rfl
  | poke h => rfl
  | call j =>
    simp only
    cases ho : s.vars[j]? with
    | none => simp only [s', step, ho]; exact EnvReplays.refl _ _
    | some o =>
      obtain ⟨c, us, ht, hsh⟩ := tree_of_var g w ops j o ho
      simp only [s']
      rw [step_call g s j o ho]
      simp only
      rw [call0_obj g c us o s.env hsh]
      exact evalN_replays code g _ o s.env hsh (hc _ (List.mem_of_getElem? ht))
  | poll j =>
    simp only
    cases ho : s.vars[j]? with
    | none => simp only [s', step, ho]; exact EnvReplays.refl _ _
    | some o =>
      obtain ⟨c, us, ht, hsh⟩ := tree_of_var g w ops j o ho
      simp only [s', step, ho]
      exact evalN_replays code g _ o s.env hsh (hc _ (List.mem_of_getElem? ht))

/-- A dependency that changes the world: the call runs it once, then `sum`; the world goes from 5 to 6. -/
example : ∃ evs, (step Glue.retained (after Glue.retained 5 [.mk sum [.function inc]]) (.call 0)).2.env.log
      = ([] : List (Ev Int Nat)) ++ evs ∧
    Replays (fun n => if n = inc.id then inc.toFnCode else sum.toFnCode) 5 evs 6 ∧
    calls evs = [inc.id, sum.id] := by
  obtain ⟨evs, h1, h2⟩ := C51_effects_are_the_invocations
    (fun n => if n = inc.id then inc.toFnCode else sum.toFnCode) Glue.retained 5
    [.mk sum [.function inc]]
    (by
      intro t ht
      have : runTrees [] [.mk sum [.function inc]] =
        [(.lazy sum.toFnCode [.function inc.toFnCode] : T)] := rfl
      rw [this] at ht
      simp at ht
      subst ht
      intro c hc
      simp [Tree.codes] at hc
      rcases hc with rfl | rfl
      · simp
      · simp [sum, inc]) (.call 0)
  refine ⟨evs, h1, h2, ?_⟩
  have : evs = (step Glue.retained (after Glue.retained 5 [.mk sum [.function inc]])
    (.call 0)).2.env.log := by
    rw [h1]; rfl
  rw [this]; rfl

/-! ### C18 -/

/-- **C18** (for glue that hands callables over by reference). Over any sequence of calls, polls and
outside changes of a variable (from any reachable state), every callable `x` in it - wrapped function
or dependency, at any depth, identities being unique - finds at each invocation the own state its
previous invocation left, starting with the state `st` it has in the object. Arbitrary functions.
Missing: `C18_pinned_forgets`. -/
theorem C18_own_state_persists_partial (g : Glue) (hg : g.keepsFns = true) (w : W)
    (ops rest : List (Op D W E S)) (i : Nat) (t : Tree D W E S)
    (ht : (runTrees [] ops)[i]? = some t) (hnd : t.postIds.Nodup)
    (hrest : ∀ op ∈ rest, op = .call i ∨ op = .poll i ∨ ∃ h, op = .poke h) :
    ∃ o evs, (after g w ops).vars[i]? = some o ∧ o.insts.map (·.1) = t.postIds ∧
      (after g w (ops ++ rest)).env.log = (after g w ops).env.log ++ evs ∧
      ∀ x st, (x, st) ∈ o.insts → ∃ st', ChainFrom st (runsOf x evs) st' := by
  obtain ⟨o, c, us, ho, rfl, hsh⟩ := vars_of_tree g w ops i t ht
  have hids := insts_postIds _ _ hsh
  obtain ⟨o', evs, h1, h2, h3⟩ := run_chain g hg i rest c us o (after g w ops) ho hsh
    (by rw [hids]; exact hnd) hrest
  refine ⟨o, evs, ho, hids, ?_, ?_⟩
  · simp only [after, run_append]
    exact h2
  · intro x st hx
    obtain ⟨st', _, h⟩ := h3 x st hx
    exact ⟨st', h⟩

/-- Three calls of `lazy(sum, tick)`: `tick` counts 0, 1, 2. -/
example : runsOf 10 (after Glue.retained 0 [.mk sum [.function tick], .call 0, .call 0, .call 0]
    : State Int Int Nat Nat).env.log = [(0, 1), (1, 2), (2, 3)] := rfl

example : ∃ o evs, (after Glue.retained 5 nested : State Int Int Nat Nat).vars[1]? = some o ∧
    o.insts.map (·.1) = yT.postIds ∧
    (after Glue.retained 5 (nested ++ [.call 1, .poke (· + 1), .poll 1])
      : State Int Int Nat Nat).env.log = (after Glue.retained 5 nested
      : State Int Int Nat Nat).env.log ++ evs ∧
    ∀ x st, (x, st) ∈ o.insts → ∃ st', ChainFrom st (runsOf x evs) st' :=
  C18_own_state_persists_partial Glue.retained rfl 5 nested [.call 1, .poke (· + 1), .poll 1] 1 yT rfl
    yT_nodup (by simp)

/-- **C18 is false of the pinned code**: the second invocation finds the initial state again (wrapped
function, and plain function dependency when results are values). -/
theorem C18_pinned_forgets :
    runsOf 10 (after Glue.asWritten 0 [.mk tick [], .call 0, .call 0]
      : State Int Int Nat Nat).env.log = [(0, 1), (0, 1)] ∧
    runsOf 10 (after copying 0 [.mk sum [.function tick], .call 0, .call 0]
      : State Int Int Nat Nat).env.log = [(0, 1), (0, 1)] ∧
    ¬ ∃ st', ChainFrom 0 [(0, 1), (0, 1)] st' := by
  refine ⟨rfl, rfl, ?_⟩
  rintro ⟨st', h⟩
  cases h with
  | cons _ _ h => cases h

/-! ### C19 -/

/-- **C19** (for glue that keeps the cache): after a call that returned, the called object holds the
returned value. Arbitrary functions. -/
theorem C19_state_survives_partial (g : Glue) (hg : g.keepsCache) (w : W)
    (ops : List (Op D W E S)) (i : Nat) (t : Tree D W E S) (ht : (runTrees [] ops)[i]? = some t)
    (x : Option (Val D)) (hx : (step g (after g w ops) (.call i)).1 = .ret (.ok x)) :
    ∃ o v, (step g (after g w ops) (.call i)).2.vars[i]? = some o ∧ o.lastVal = some v ∧
      (x = some v ∨ x = none ∧ v = .rvoid) := by
  obtain ⟨o, c, us, ho, rfl, hsh⟩ := vars_of_tree g w ops i t ht
  rw [step_call g _ i o ho] at hx ⊢
  simp only [Obs.ret.injEq] at hx
  obtain ⟨r, hre, hxe⟩ := (call0_result g c us o _ hsh).1 x hx
  refine ⟨_, r.value, set_get _ _ _ _ ho, ?_, ?_⟩
  · rw [call0_obj g c us o _ hsh]
    exact ((evalN_cache g hg c us o _ hsh).1 r hre).1
  · by_cases hv : c.ret = .val
    · left; rw [hxe, if_pos hv]
    · right
      exact ⟨by rw [hxe, if_neg hv], evalN_void g c us o _ hsh hv r hre⟩

example : ∃ o, (step Glue.retained (after Glue.retained 5 nested : State Int Int Nat Nat)
    (.call 1)).2.vars[1]? = some o ∧ o.lastVal = some (.data 14) := ⟨_, rfl, rfl⟩

/-- **C19 is false wherever the cache is dropped** (the pinned code): in no history does a variable
ever hold a value. -/
theorem C19_dropped_never_holds (g : Glue) (hg : g.Drops) (w : W) (ops : List (Op D W E S))
    (i : Nat) (o : Obj D W E S) (ho : (after g w ops).vars[i]? = some o) : o.lastVal = none := by
  have hi := reach_inv g w ops
  have hlt : i < (runTrees [] ops).length := by
    rw [hi.shape.length]; exact (List.getElem?_eq_some_iff.1 ho).1
  have ht : (runTrees [] ops)[i]? = some (runTrees [] ops)[i] := List.getElem?_eq_getElem hlt
  obtain ⟨o', c, us, ho', heq, hsh⟩ := vars_of_tree g w ops i _ ht
  rw [ho] at ho'
  cases ho'
  have hp := reach_pristine g hg w ops i _ o ht ho
  rw [heq] at hsh
  simp only [Shape] at hsh
  obtain ⟨u, cache, ds, rfl, hf, hds, rfl⟩ := hsh
  simp only [Obj.Pristine] at hp
  exact hp.1

example : ∃ o, (after Glue.asWritten 5 [.mk rd [], .call 0, .call 0]
    : State Int Int Nat Nat).vars[0]? = some o ∧ o.lastVal = none := ⟨_, rfl, rfl⟩

/-! ### C20 -/

/-- **C20**, overload resolution of `ensure_lazy`: exactly one overload is selected for every
combination of capabilities. -/
theorem C20_classification (c : Caps) :
    ensureSelect c = some (if c.lazyFunction ∧ c.invocable then .asIs
      else if c.invocable then .poll else .constant) := by
  obtain ⟨a, b⟩ := c
  cases a <;> cases b <;> rfl

/-- **C20**, overload resolution is not ambiguous: one overload is more constrained than another exactly if it accepts strictly less, and the selected one is more
constrained than every other viable one, and the only one that is. -/
theorem C20_unambiguous :
    (∀ a b, moreConstrained a b = true ↔ (∀ c, ensureViable c a = true → ensureViable c b = true) ∧ ∃ c, ensureViable c b = true ∧ ensureViable c a = false) ∧
    ∀ c a, ensureSelect c = some a ↔ ensureViable c a = true ∧ ∀ b, ensureViable c b = true → b ≠ a → moreConstrained a b = true ∧ moreConstrained b a = false := by
  have hall : ∀ P : Caps → Prop, (∀ c, P c) ↔ P ⟨true, true⟩ ∧ P ⟨true, false⟩ ∧ P ⟨false, true⟩ ∧ P ⟨false, false⟩ := by
    intro P
    refine ⟨fun h => ⟨h _, h _, h _, h _⟩, ?_⟩
    rintro ⟨h1, h2, h3, h4⟩ ⟨a, b⟩
    cases a <;> cases b <;> assumption
  have hex : ∀ P : Caps → Prop, (∃ c, P c) ↔ P ⟨true, true⟩ ∨ P ⟨true, false⟩ ∨ P ⟨false, true⟩ ∨ P ⟨false, false⟩ := by
    intro P
    refine ⟨?_, ?_⟩
    · rintro ⟨⟨a, b⟩, h⟩
      cases a <;> cases b <;> simp_all
    · rintro (h | h | h | h) <;> exact ⟨_, h⟩
  have hb : ∀ P : EnsureOverload → Prop, (∀ b, P b) ↔ P .asIs ∧ P .poll ∧ P .constant := by
    intro P
    refine ⟨fun h => ⟨h _, h _, h _⟩, ?_⟩
    rintro ⟨h1, h2, h3⟩ b
    cases b <;> assumption
  constructor
  · intro a b
    rw [hall, hex]
    cases a <;> cases b <;> simp [moreConstrained, ensureViable]
  · rintro ⟨x, y⟩ a
    rw [hb, C20_classification]
    cases x <;> cases y <;> cases a <;> simp [moreConstrained, ensureViable]

example : ensureSelect ⟨true, true⟩ = some .asIs ∧ ensureViable ⟨true, true⟩ .poll = true ∧ moreConstrained .asIs .poll = true := ⟨rfl, rfl, rfl⟩

/-- **C20**, effect: a value becomes an object that always yields that value unchanged and does
nothing else; a lazy function is used as it is; a plain function is treated in C08. -/
theorem C20_effect (g : Glue) (v : Val D) (f : UFn D W E S) (ds : List (DepArg D W E S))
    (o : Obj D W E S) (ho : pigroLazy f ds = some o) :
    ensureLazy (.lazyObj o) = some o ∧
    ∃ k, ensureLazy (.value v : DepArg D W E S) = some k ∧ ∀ env, ∃ live,
      evalN g k env = (.ok ⟨v, false, live⟩, k, env) := by
  refine ⟨?_, _, ensureLazy_value v, fun env => ⟨!(g.resultByRef && g.valueParamByValue),
    by simp [evalN]⟩⟩
  unfold pigroLazy at ho
  split at ho
  · cases ho
    exact ensureLazy_facade _
  · cases ho

example : ∃ o, pigroLazy sum [.value (.data 1), .function rd] = some o := ⟨_, rfl⟩

/-- **C20**, objects: a lazy object is accepted as a dependency exactly if it can also be called without arguments, and is then used as it is: not a
`lazy_value`, and not the inner object of another. -/
theorem C20_only_facades (o o' : Obj D W E S) :
    ensureLazy (.lazyObj o) = some o' ↔ o' = o ∧ ((∃ i, o = .unwrapped i) ∨ ∃ i, o = .unregularized i) := by
  have key : ensureLazy (.lazyObj o) = if o.caps.invocable then some o else none := by
    cases o <;> rfl
  rw [key]
  cases o <;> simp [Obj.caps, eq_comm]

example : ensureLazy (.lazyObj (.unwrapped (.lazyValue (.data 1) false)) : DepArg Int Int Nat Nat) = some (.unwrapped (.lazyValue (.data 1) false)) ∧
    ensureLazy (.lazyObj (.lazyValue (.data 1) false) : DepArg Int Int Nat Nat) = none := ⟨rfl, rfl⟩

/-- A `void` function is not accepted as dependency. -/
theorem C20_void_dependency_rejected (f u : UFn D W E S) (hu : u.ret = .void) (s : State D W E S)
    (g : Glue) (before later : List (ArgRef D W E S)) :
    step g s (.mk f (before ++ .function u :: later)) = (.invalid, s) := by
  have key : ∀ l : List (ArgRef D W E S),
      (resolveAll s.vars (l ++ .function u :: later)).bind ensureAll = none := by
    intro l
    induction l with
    | nil =>
      simp only [List.nil_append, resolveAll, ArgRef.resolve]
      cases resolveAll s.vars later with
      | none => rfl
      | some ds => simp [ensureAll, ensureLazy_function, hu]
    | cons a l ih =>
      simp only [List.cons_append, resolveAll]
      cases ha : a.resolve s.vars with
      | none => rfl
      | some d =>
        cases hl : resolveAll s.vars (l ++ .function u :: later) with
        | none => rfl
        | some ds =>
          rw [hl] at ih
          simp only [Option.bind_some] at ih
          simp only [Option.bind_some, ensureAll, ih]
          cases ensureLazy d <;> rfl
  have h := key before
  have : (resolveAll s.vars (before ++ .function u :: later)).bind (pigroLazy f) = none := by
    cases hl : resolveAll s.vars (before ++ .function u :: later) with
    | none => rfl
    | some ds =>
      rw [hl] at h
      simp only [Option.bind_some] at h
      simp [pigroLazy, h]
  simp only [step, this]

example : step Glue.asWritten (State.init 5 : State Int Int Nat Nat)
    (.mk sum [.value (.data 1), .function proc]) = (.invalid, State.init 5) :=
  C20_void_dependency_rejected sum proc rfl _ _ [.value (.data 1)] []

/-! ### C21 -/

/-- **C21**, any glue, any reachable state, arbitrary functions: the user functions invoked by one call
form a subsequence of the depth-first post-order of the tree: each at most once, dependents after
their dependencies. -/
theorem C21_each_function_at_most_once (g : Glue) (w : W) (ops : List (Op D W E S)) (i : Nat)
    (t : Tree D W E S) (ht : (runTrees [] ops)[i]? = some t) :
    let s := after g w ops
    ∃ evs, (step g s (.call i)).2.env.log = s.env.log ++ evs ∧ (calls evs).Sublist t.postIds ∧
      (t.postIds.Nodup → (calls evs).Nodup) := by
  intro s
  obtain ⟨evs, r, _, h1, _, _, h2⟩ := C07_deps_once_in_order g w ops i t ht
  exact ⟨evs, h1, h2, fun h => h2.nodup h⟩

example : ∃ evs, (step Glue.retained (after Glue.retained 5 nested : State Int Int Nat Nat)
      (.call 1)).2.env.log = (after Glue.retained 5 nested : State Int Int Nat Nat).env.log ++ evs ∧
    (calls evs).Sublist yT.postIds ∧ (yT.postIds.Nodup → (calls evs).Nodup) :=
  C21_each_function_at_most_once Glue.retained 5 nested 1 yT rfl

end Pigro
