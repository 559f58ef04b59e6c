import Verif.Props.Demo
import Verif.Proofs.LazyLog
/-!
# C05 – C13: skipping, re-evaluation, comparisons, `is_changed`, `void`, copies
-/
namespace Pigro
open Demo
variable {D W E S O : Type} [CxxData D]

/-! ### C05, C09: re-evaluation in terms of values -/

/-- Between two calls of variable `i` (any operations in between that do not evaluate `i` itself), the
functions invoked by the second call are exactly `m.recalc`: those with a dependency whose eager value
differs between the two calls; the comparisons are exactly `m.recmp`. -/
theorem C05_exact_recalculation_partial (hs : SoundNe D) (hr : ReflNe D) (g : Glue) (hg : g.Retains)
    (m : Meaning D W E S O) (w : W) (ops1 ops2 : List (Op D W E S)) (i : Nat) (t : Tree D W E S)
    (ht : (runTrees [] ops1)[i]? = some t) (hok : ∀ t ∈ runTrees [] ops1, TreeOk g m t)
    (hne : ∀ op ∈ ops2, ¬ op.evaluates i) :
    let s1 := after g w ops1
    let s2 := after g w (ops1 ++ .call i :: ops2)
    (step g s2 (.call i)).1 = .ret (.ok (m.result (m.obs s2.env.w) t)) ∧
    fnCalls (step g s2 (.call i)).2.env.log =
      fnCalls s2.env.log ++ m.recalc (m.obs s1.env.w) (m.obs s2.env.w) t ∧
    cmps (step g s2 (.call i)).2.env.log =
      cmps s2.env.log ++ m.recmp (m.obs s1.env.w) (m.obs s2.env.w) t :=
  call_recalc hs hr g hg m w ops1 ops2 i t ht (hok t (List.mem_of_getElem? ht))
    (fun o ho => reach_cons hs g (.inl hg) m w ops1 hok i t o ht ho) hne

/-- **C05** (for glue that keeps everything). If every dependency has, at the second call, the value it
had at the first, then the wrapped function is not invoked (its identity being unique in the tree) and
the value of the first call is returned. Missing: see `C05_pinned_reinvokes`. -/
theorem C05_no_reevaluation_partial (hs : SoundNe D) (hr : ReflNe D) (g : Glue) (hg : g.Retains)
    (m : Meaning D W E S O) (w : W) (ops1 ops2 : List (Op D W E S)) (i : Nat)
    (c : FnCode D W E S) (deps : List (Tree D W E S))
    (ht : (runTrees [] ops1)[i]? = some (.lazy c deps))
    (hok : ∀ t ∈ runTrees [] ops1, TreeOk g m t)
    (hne : ∀ op ∈ ops2, ¬ op.evaluates i) (hnd : (Tree.lazy c deps).postIds.Nodup)
    (hsame : ∀ d ∈ deps, m.eager (m.obs (after g w ops1).env.w) d =
      m.eager (m.obs (after g w (ops1 ++ .call i :: ops2)).env.w) d) :
    let s1 := after g w ops1
    let s2 := after g w (ops1 ++ .call i :: ops2)
    (step g s2 (.call i)).1 = (step g s1 (.call i)).1 ∧
    ∃ new, fnCalls (step g s2 (.call i)).2.env.log = fnCalls s2.env.log ++ new ∧
      c.id ∉ new.map (·.1) := by
  intro s1 s2
  obtain ⟨h1, h2, _⟩ := C05_exact_recalculation_partial hs hr g hg m w ops1 ops2 i _ ht hok hne
  refine ⟨?_, _, h2, ?_⟩
  · have hc := fun o ho => reach_cons hs g (.inl hg) m w ops1 hok i _ o ht ho
    obtain ⟨o, c', us, ho, heq, hsh⟩ := vars_of_tree g w ops1 i _ ht
    cases heq
    rw [h1, step_call g s1 i o ho, call0_stepOk hs g m c deps o s1.env hsh
      (hok _ (List.mem_of_getElem? ht)) (hc o ho)]
    have : m.eager (m.obs s2.env.w) (.lazy c deps) = m.eager (m.obs s1.env.w) (.lazy c deps) := by
      rw [Meaning.eager, Meaning.eager]
      congr 2
      exact List.map_congr_left fun d hd => (hsame d hd).symm
    simp only [Meaning.result]
    rw [this]
  · rw [recalc_mem_iff m _ _ .refl hnd]
    simp only [List.any_map, List.any_eq_true, Function.comp, id, not_exists, not_and,
      Bool.not_eq_true]
    intro d hd
    rw [hsame d hd]
    exact Val.ne_refl hr _

/-- The nested example, from world 5 through 9 back to 5: the second call invokes nothing. -/
example : (step Glue.retained (after Glue.retained 5
      (nested ++ .call 1 :: [.poke (· + 4), .poke (· - 4)]) : State Int Int Nat Nat) (.call 1)).1 =
    (step Glue.retained (after Glue.retained 5 nested : State Int Int Nat Nat) (.call 1)).1 :=
  (C05_no_reevaluation_partial soundNe reflNe Glue.retained ⟨rfl, rfl, rfl, rfl⟩ canon 5 nested
    [.poke (· + 4), .poke (· - 4)] 1 sum.toFnCode _ rfl nested_ok (by simp [Op.evaluates]) yT_nodup
    (by
      intro d _
      have : (after Glue.retained 5 (nested ++ .call 1 :: [.poke (· + 4), .poke (· - 4)]) :
        State Int Int Nat Nat).env.w = 5 := rfl
      rw [this]; rfl)).1

/-- **C05 is false wherever caches are dropped** (in particular in the pinned code): every evaluation of
every history invokes every wrapped function of the tree and compares nothing. -/
theorem C05_dropped_reinvokes_all (hs : SoundNe D) (hr : ReflNe D) (g : Glue) (hg : g.Drops)
    (m : Meaning D W E S O) (w : W) (ops : List (Op D W E S)) (i : Nat) (t : Tree D W E S)
    (ht : (runTrees [] ops)[i]? = some t) (hok : ∀ t ∈ runTrees [] ops, TreeOk g m t) :
    let s := after g w ops
    fnCalls (step g s (.call i)).2.env.log = fnCalls s.env.log ++ m.firstCalls (m.obs s.env.w) t ∧
    cmps (step g s (.call i)).2.env.log = cmps s.env.log := by
  intro s
  obtain ⟨o, c, us, ho, rfl, hsh⟩ := vars_of_tree g w ops i t ht
  have hok' := hok _ (List.mem_of_getElem? ht)
  have hc := reach_cons hs g (.inr hg) m w ops hok i _ o ht ho
  have hp := reach_pristine g hg w ops i _ o ht ho
  obtain ⟨r2, o2, env2, he2, _, _, _, _, _, hex⟩ :=
    evalN_stepOk hs g m _ o s.env hsh hok'.1 hok'.2.1 hok'.2.2 hc
  obtain ⟨_, h1, h2⟩ := hex hr
  have hobj := call0_obj g c us o s.env hsh
  have hep := expect_pristine m (m.obs s.env.w) _ o hsh hp
  rw [step_call g s i o ho]
  refine ⟨?_, ?_⟩
  · simp only; rw [hobj, he2]; simp only; rw [h1, hep.1]
  · simp only; rw [hobj, he2]; simp only; rw [h2, hep.2, List.append_nil]

example : fnCalls (step copying (after copying 5 (nested ++ [.call 1]) : State Int Int Nat Nat)
      (.call 1)).2.env.log =
    fnCalls (after copying 5 (nested ++ [.call 1]) : State Int Int Nat Nat).env.log ++
      canon.firstCalls 5 yT :=
  (C05_dropped_reinvokes_all soundNe reflNe copying (.inl rfl) canon 5 (nested ++ [.call 1]) 1 yT rfl
    (by
      intro t ht
      have : runTrees [] (nested ++ [.call 1]) = [xT, yT] := rfl
      rw [this] at ht
      simp at ht
      rcases ht with rfl | rfl
      · exact xT_ok _ (.inl rfl)
      · exact yT_ok _ (.inl rfl) (.inl rfl))).1

/-- **C09** (for glue that keeps everything). Take any lazy function `c` with dependencies `ds`
anywhere in the tree of the called variable (identities being unique). Between two calls, `c` is
invoked by the second call if and only if one of its own dependencies has a value comparing different;
in particular, a dependency that was itself re-evaluated to an equal value does not count.
Missing: see `C05_dropped_reinvokes_all`. -/
theorem C09_early_cutoff_partial (hs : SoundNe D) (hr : ReflNe D) (g : Glue) (hg : g.Retains)
    (m : Meaning D W E S O) (w : W) (ops1 ops2 : List (Op D W E S)) (i : Nat) (t : Tree D W E S)
    (ht : (runTrees [] ops1)[i]? = some t) (hok : ∀ t ∈ runTrees [] ops1, TreeOk g m t)
    (hne : ∀ op ∈ ops2, ¬ op.evaluates i) (hnd : t.postIds.Nodup)
    (c : FnCode D W E S) (ds : List (Tree D W E S)) (hin : Tree.Within (.lazy c ds) t) :
    let s1 := after g w ops1
    let s2 := after g w (ops1 ++ .call i :: ops2)
    ∃ new, fnCalls (step g s2 (.call i)).2.env.log = fnCalls s2.env.log ++ new ∧
      (c.id ∈ new.map (·.1) ↔
        ∃ d ∈ ds, Val.ne (m.eager (m.obs s1.env.w) d) (m.eager (m.obs s2.env.w) d) = true) := by
  intro s1 s2
  obtain ⟨_, h2, _⟩ := C05_exact_recalculation_partial hs hr g hg m w ops1 ops2 i _ ht hok hne
  refine ⟨_, h2, ?_⟩
  rw [recalc_mem_iff m _ _ hin hnd]
  simp [List.any_map, List.any_eq_true, s1, s2]

/-- From world 4 to world 5, `x = lazy(halfArg, rd)` is re-evaluated (4 → 5) to the equal value 2, and
`y = lazy(sum, x, 10, half)` is not invoked. -/
example : fnCalls (step Glue.retained (after Glue.retained 4
      (nested ++ .call 1 :: [.poke (· + 1)]) : State Int Int Nat Nat) (.call 1)).2.env.log =
    fnCalls (after Glue.retained 4 (nested ++ .call 1 :: [.poke (· + 1)]) :
      State Int Int Nat Nat).env.log ++ [(4, [.data 5])] := rfl

example : ∃ new, fnCalls (step Glue.retained (after Glue.retained 4
      (nested ++ .call 1 :: [.poke (· + 1)]) : State Int Int Nat Nat) (.call 1)).2.env.log =
    fnCalls (after Glue.retained 4 (nested ++ .call 1 :: [.poke (· + 1)]) :
      State Int Int Nat Nat).env.log ++ new ∧
    (halfArg.id ∈ new.map (·.1) ↔ ∃ d ∈ [Tree.function rd.toFnCode],
      Val.ne (canon.eager 4 d) (canon.eager 5 d) = true) :=
  C09_early_cutoff_partial soundNe reflNe Glue.retained ⟨rfl, rfl, rfl, rfl⟩ canon 4 nested
    [.poke (· + 1)] 1 yT rfl nested_ok (by simp [Op.evaluates]) yT_nodup halfArg.toFnCode
    [.function rd.toFnCode] (.dep _ (by simp [xT]) .refl)

/-! ### C06, C10: one call of one node, arbitrary functions -/

/-- **C06** and **C10**, one node. `ds` are the dependency objects of variable `i`, in any reachable
state, and the functions are arbitrary (impure, throwing). One evaluation first evaluates `ds`. If that
fails, nothing else happens. If it yields the (readable) results `rs`, the wrapped function is invoked
once - with the values of `rs` - if nothing was cached or some result reports a change, and not at all
otherwise; and the new value is compared once if the function was invoked, returned a value, is not
`void`, and a value was cached; otherwise nothing is compared. No hypothesis on `g`. -/
theorem C06_runs_iff_changed (g : Glue) (w : W) (ops : List (Op D W E S)) (i : Nat)
    (c : FnCode D W E S) (us : List (Tree D W E S))
    (ht : (runTrees [] ops)[i]? = some (.lazy c us)) :
    ∃ f cache ds, f.toFnCode = c ∧
      (after g w ops).vars[i]? = some (.unregularized (.unwrapped (.core (.regularized f) cache ds))) ∧
      ShapeL us ds ∧
      let s := after g w ops
      let e := evalDeps g ds s.env
      let s' := (step g s (.call i)).2
      (e.1.isOk = false → s'.env = e.2.2) ∧
      ∀ rs, e.1 = .ok rs → (∀ r ∈ rs, r.live = true) →
        let fires := cache.val? = none ∨ ∃ r ∈ rs, r.isChanged = true
        let args := tupleCTAD Val.asTuple (rs.map LazyRes.value)
        (fires → fnCalls s'.env.log = fnCalls e.2.2.log ++ [(c.id, args)]) ∧
        (¬ fires → s'.env = e.2.2) ∧
        (∀ v, fires → (c.run f.st args e.2.2.w).1 = .ok v → cmps s'.env.log = cmps e.2.2.log ++
          (if c.ret = .val then cache.val?.toList.map (·, v) else [])) ∧
        (∀ x, fires → (c.run f.st args e.2.2.w).1 = .error x →
          cmps s'.env.log = cmps e.2.2.log) := by
  obtain ⟨o, c', us', ho, heq, hsh⟩ := vars_of_tree g w ops i _ ht
  cases heq
  have hsh0 := hsh
  simp only [Shape] at hsh
  obtain ⟨f, cache, ds, rfl, hf, hds, rfl⟩ := hsh
  refine ⟨f, cache, ds, rfl, ho, hds, ?_⟩
  intro s e s'
  have hs' : s'.env = (evalN g (.core (.regularized f) cache ds) s.env).2.2 := by
    simp only [s']
    rw [step_call g s i _ ho]
    simp only
    rw [call0_facade]
  rcases he : evalDeps g ds s.env with ⟨q, ds', env1⟩
  have he1 : e = (q, ds', env1) := he
  rw [he1]
  refine ⟨?_, ?_⟩
  · intro hq
    rw [hs', evalN_core_fail g _ cache ds s.env he hq]
  · intro rs hrs hl fires args
    simp only at hrs
    subst hrs
    have hl' : rs.all (·.live) = true := by simpa using hl
    rw [hs', evalN_core_ok g _ cache ds s.env he]
    obtain ⟨h1, h2, -, -⟩ := coreTail_exact g f cache rs env1 hf hl'
    have hfires : fires ↔ (cache.val?.isNone || rs.any (·.isChanged)) = true := by
      simp [fires]
    refine ⟨?_, ?_, ?_, ?_⟩
    · intro hfi
      rw [h1, if_pos (hfires.1 hfi)]
    · intro hfi
      have hfi' : (cache.val?.isNone || rs.any (·.isChanged)) = false := by
        rw [← Bool.not_eq_true, ← hfires]; exact hfi
      have hx : ∃ x, cache.val? = some x := by
        cases h : cache.val? with
        | none => simp [h] at hfi'
        | some x => exact ⟨x, rfl⟩
      obtain ⟨x, hx⟩ := hx
      rw [coreTail_skip g _ cache rs env1 x (by
        rw [any_eq]
        simp only [Bool.or_eq_false_iff] at hfi'
        exact hfi'.2) hx]
    · intro v hfi hv
      rw [h2, if_pos (hfires.1 hfi), hv]
      simp only [cmpOne]
      by_cases hr : f.ret = .val
      · simp only [hr, if_true, RetTy.regularize]
        cases cache.val? <;> rfl
      · simp [hr]
    · intro x hfi hv
      rw [h2, if_pos (hfires.1 hfi), hv]
      simp

/-- The nested example: a first call (fires), for the retaining glue. -/
example : ∃ f cache ds, f.toFnCode = sum.toFnCode ∧
    (after Glue.retained 5 nested : State Int Int Nat Nat).vars[1]? =
      some (.unregularized (.unwrapped (.core (.regularized f) cache ds))) ∧
    cache.val? = none ∧ (evalDeps Glue.retained ds ⟨5, []⟩).1.isOk = true :=
  ⟨sum, _, _, rfl, rfl, rfl, rfl⟩

/-- **C10** (for glue that keeps everything), whole tree: the comparisons of a call after an earlier
call are exactly those of `m.recmp` - one per plain function, one per re-invoked lazy function. -/
theorem C10_comparisons_exact_partial (hs : SoundNe D) (hr : ReflNe D) (g : Glue) (hg : g.Retains)
    (m : Meaning D W E S O) (w : W) (ops1 ops2 : List (Op D W E S)) (i : Nat) (t : Tree D W E S)
    (ht : (runTrees [] ops1)[i]? = some t) (hok : ∀ t ∈ runTrees [] ops1, TreeOk g m t)
    (hne : ∀ op ∈ ops2, ¬ op.evaluates i) :
    let s1 := after g w ops1
    let s2 := after g w (ops1 ++ .call i :: ops2)
    cmps (step g s2 (.call i)).2.env.log =
      cmps s2.env.log ++ m.recmp (m.obs s1.env.w) (m.obs s2.env.w) t :=
  (C05_exact_recalculation_partial hs hr g hg m w ops1 ops2 i t ht hok hne).2.2

/-- World 4 to 5: `rd` 4 against 5, `halfArg` 2 against 2, `half` 2 against 2; `sum` not compared. -/
example : cmps (step Glue.retained (after Glue.retained 4
      (nested ++ .call 1 :: [.poke (· + 1)]) : State Int Int Nat Nat) (.call 1)).2.env.log =
    cmps (after Glue.retained 4 (nested ++ .call 1 :: [.poke (· + 1)]) :
      State Int Int Nat Nat).env.log ++ canon.recmp 4 5 yT ∧
    canon.recmp 4 5 yT = [(.data 4, .data 5), (.data 2, .data 2), (.data 2, .data 2)] :=
  ⟨C10_comparisons_exact_partial soundNe reflNe Glue.retained ⟨rfl, rfl, rfl, rfl⟩ canon 4 nested
    [.poke (· + 1)] 1 yT rfl nested_ok (by simp [Op.evaluates]), by
    simp [yT, xT, Meaning.recmp, Meaning.eager, canon, sum, halfArg, rd, half, RetTy.regularize,
      toInt, Val.ne, CxxData.ne]⟩

/-! ### C07, C08 -/

/-- **C07.** One call of a variable (any glue, any reachable state, arbitrary functions) invokes plain
function dependencies in left-to-right depth-first order, each at most once; all of them if the call
returns. -/
theorem C07_deps_once_in_order (g : Glue) (w : W) (ops : List (Op D W E S)) (i : Nat)
    (t : Tree D W E S) (ht : (runTrees [] ops)[i]? = some t) :
    let s := after g w ops
    ∃ evs r, (step g s (.call i)).1 = .ret r ∧
      (step g s (.call i)).2.env.log = s.env.log ++ evs ∧
      depCalls evs <+: t.leafIds ∧ (r.isOk = true → depCalls evs = t.leafIds) ∧
      (calls evs).Sublist t.postIds := by
  intro s
  obtain ⟨o, c, us, ho, rfl, hsh⟩ := vars_of_tree g w ops i t ht
  obtain ⟨evs, l', hlog, hth, _, hpre, hall⟩ := (evalN_oneCall g _ o s.env hsh).ex
  have hobj := call0_obj g c us o s.env hsh
  refine ⟨evs, (call0 g o s.env).1, ?_, ?_, hpre, ?_, ?_⟩
  · rw [step_call g s i o ho]
  · rw [step_call g s i o ho]
    simp only
    rw [hobj, hlog]
  · intro hr
    apply hall
    rcases hx : (call0 g o s.env).1 with x | e | _ | _
    · obtain ⟨r, hre, _⟩ := (call0_result g c us o s.env hsh).1 x hx
      rw [hre]; rfl
    all_goals rw [hx] at hr; cases hr
  · rw [calls_eq_runs, ← insts_postIds _ _ hsh]
    exact hth.sublist.1

/-- The nested example: `rd`, then `half`. -/
example : ∃ evs r, (step Glue.retained (after Glue.retained 5 nested : State Int Int Nat Nat)
      (.call 1)).1 = .ret r ∧ r.isOk = true ∧
    (step Glue.retained (after Glue.retained 5 nested : State Int Int Nat Nat) (.call 1)).2.env.log =
      (after Glue.retained 5 nested : State Int Int Nat Nat).env.log ++ evs ∧
    depCalls evs = [1, 2] ∧ calls evs = [1, 4, 2, 3] :=
  ⟨_, _, rfl, rfl, rfl, rfl, rfl⟩

/-- **C08.** A plain function used as dependency: whatever is cached (any state `o` of the dependency
object), evaluating it invokes the function exactly once, and the result is what the function (in its current
own state) returns now, or the exception it throws. Requires only that the dummy argument of the adaptor is readable. -/
theorem C08_plain_functions_never_cached (g : Glue)
    (hl : g.resultByRef = false ∨ g.valueParamByValue = false) (c : FnCode D W E S)
    (o : Obj D W E S) (env : Env D W S) (h : Shape (.function c) o) :
    ∃ st, o.insts = [(c.id, st)] ∧ calls (evalN g o env).2.2.log = calls env.log ++ [c.id] ∧
      match (c.run st [] env.w).1 with
      | .ok v => ∃ r, (evalN g o env).1 = .ok r ∧ r.value = c.ret.regularize v
      | .error e => (evalN g o env).1 = .thrown e := by
  simp only [Shape] at h
  obtain ⟨u, cache, rfl, hv, hf, rfl⟩ := h
  have hlive : (!(g.resultByRef && g.valueParamByValue)) = true := by
    rcases hl with h | h <;> simp [h]
  have hd : evalDeps g [Obj.lazyValue (.data CxxData.zero) true] env =
      (.ok [⟨.data CxxData.zero, true, true⟩],
        [(Obj.lazyValue (.data CxxData.zero) true : Obj D W E S)], env) := by
    simp [evalDeps, evalN, Out.map, hlive]
  refine ⟨u.st, by simp [Obj.insts, Obj.instsL], ?_⟩
  rw [evalN_core_ok g _ cache _ env hd]
  have hch : (!cache.engaged || any LazyRes.isChanged
      [(⟨.data CxxData.zero, true, true⟩ : LazyRes D)]) = true := by
    rw [any_eq]; simp
  have hrv : readValues [(⟨.data CxxData.zero, true, true⟩ : LazyRes D)] =
      some [.data CxxData.zero] := readValues_live rfl (by intro r hr; cases hr; rfl)
  rcases hrun : (u.run u.st [] env.w).1 with e | v
  · have : coreTail g (.wrapDep u) cache [⟨.data CxxData.zero, true, true⟩] env =
        (.thrown e, .wrapDep (keep g.wrapParamByValue u (u.invoke .dep [] env).2.1), cache,
          (u.invoke .dep [] env).2.2) := by
      simp only [coreTail, hch, if_true, hrv, Fun.call, UFn.invoke, hrun, Out.map]
    rw [this]
    simp [UFn.invoke, calls]
  · have hcall : Fun.call g (.wrapDep u) [.data CxxData.zero] env =
        (.ok (u.ret.regularize v), .wrapDep (keep g.wrapParamByValue u (u.invoke .dep [] env).2.1),
          (u.invoke .dep [] env).2.2) := by
      simp [Fun.call, UFn.invoke, hrun]
    rw [coreTail_run g (.wrapDep u) _ cache _ env _ _ u.ret v hch hrv hcall hf]
    simp [UFn.invoke, calls, (cmpEvents_simple (S := S) cache _).2.2.2]

/-- Dependency objects are made in this shape, and keep it under evaluation. -/
theorem C08_shape_reachable (g : Glue) (u : UFn D W E S) (hu : u.ret ≠ .void) :
    ∃ o, ensureLazy (.function u) = some o ∧ Shape (.function u.toFnCode) o ∧
      ∀ o', Shape (.function u.toFnCode) o' → ∀ env : Env D W S,
        Shape (.function u.toFnCode) (evalN g o' env).2.1 := by
  refine ⟨_, (ensureLazy_function u).trans (if_neg hu), ?_, fun o' h env => evalN_shape g _ _ env h⟩
  simp only [Shape]
  exact ⟨u, Cache.empty u.ret, rfl, hu, Cache.empty_fits _, rfl⟩

/-- A function that returns a different value every time: both are seen. -/
example : (run Glue.retained (State.init 0) [.mk sum [.function tick], .call 0, .call 0, .call 0]
      : _ × State Int Int Nat Nat).1 =
    [.unit, .ret (.ok (some (.data 0))), .ret (.ok (some (.data 1))), .ret (.ok (some (.data 2)))] :=
  rfl

/-! ### C11 -/

/-- **C11** (for glue that keeps the cache). In any history without undefined behaviour and for
arbitrary functions, a poll that returns reports `is_changed` iff the variable had not been evaluated
before or the value compares different from the value its previous evaluation returned. What was
returned before is computed by `trackAll` from the operations and their visible results only.
Missing: `C11_dropped_always_changed`. -/
theorem C11_is_changed_partial (hr : ReflNe D) (g : Glue) (hg : g.keepsCache) (w : W)
    (ops : List (Op D W E S)) (hub : ∀ ob ∈ (run g (State.init w) ops).1, ob ≠ .ret .ub)
    (i : Nat) (t : Tree D W E S) (ht : (runTrees [] ops)[i]? = some t) (r : LazyRes D)
    (hp : (step g (after g w ops) (.poll i)).1 = .polled (.ok r)) :
    ∃ last, (trackAll [] ops (run g (State.init w) ops).1)[i]? = some last ∧
      (r.isChanged = true ↔ last = none ∨ ∃ v, last = some v ∧ Val.ne v r.value = true) := by
  obtain ⟨o, c, us, ho, rfl, hsh⟩ := vars_of_tree g w ops i t ht
  rw [step_poll g _ i o ho] at hp
  have hp' : (evalN g o (after g w ops).env).1 = .ok r := by
    simpa using hp
  have h := ((evalN_cache g hg c us o _ hsh).1 r hp').2 hr
  refine ⟨o.lastVal, ?_, ?_⟩
  · rw [reach_seen g hg w ops hub]
    simp only [List.getElem?_map]
    rw [ho]; rfl
  · rw [h]
    cases o.lastVal <;> simp [flag]

/-- After a call in world 4, a poll in world 5 of `lazy(halfArg, rd)`: not changed; in world 6:
changed. -/
example : ((step Glue.retained (after Glue.retained 4 [.mk halfArg [.function rd], .call 0,
      .poke (· + 1)] : State Int Int Nat Nat) (.poll 0)).1 = .polled (.ok ⟨.data 2, false, true⟩)) ∧
    ((step Glue.retained (after Glue.retained 4 [.mk halfArg [.function rd], .call 0,
      .poke (· + 2)] : State Int Int Nat Nat) (.poll 0)).1 = .polled (.ok ⟨.data 3, true, true⟩)) ∧
    trackAll [] [.mk halfArg [.function rd], .call 0, .poke (· + 2)]
      (run Glue.retained (State.init 4) [.mk halfArg [.function rd], .call 0,
        .poke (· + 2)] : _ × State Int Int Nat Nat).1 = [some (.data 2)] :=
  ⟨rfl, rfl, rfl⟩

/-- **C11 is false wherever caches are dropped**: every poll reports a change. -/
theorem C11_dropped_always_changed (g : Glue) (hg : g.Drops) (w : W) (ops : List (Op D W E S))
    (i : Nat) (t : Tree D W E S) (ht : (runTrees [] ops)[i]? = some t) (r : LazyRes D)
    (hp : (step g (after g w ops) (.poll i)).1 = .polled (.ok r)) : r.isChanged = true := by
  obtain ⟨o, c, us, ho, rfl, hsh⟩ := vars_of_tree g w ops i t ht
  rw [step_poll g _ i o ho] at hp
  have hp' : (evalN g o (after g w ops).env).1 = .ok r := by
    simpa using hp
  have hpr := reach_pristine g hg w ops i _ o ht ho
  refine evalN_first g c us o _ hsh ?_ r hp'
  simp only [Shape] at hsh
  obtain ⟨u, cache, ds, rfl, hf, hds, rfl⟩ := hsh
  simp only [Obj.Pristine] at hpr
  exact hpr.1

example : (step Glue.asWritten (after Glue.asWritten 5 [.mk rd [], .poll 0] :
      State Int Int Nat Nat) (.poll 0)).1 = .polled (.ok ⟨.data 5, true, false⟩) := rfl

/-! ### C12 -/

/-- **C12**, any glue: a lazy `void` function returns nothing from a call, and `regular_void` from a
poll, i.e. to its dependents. -/
theorem C12_void_returns_nothing (g : Glue) (w : W) (ops : List (Op D W E S)) (i : Nat)
    (c : FnCode D W E S) (us : List (Tree D W E S))
    (ht : (runTrees [] ops)[i]? = some (.lazy c us)) (hv : c.ret ≠ .val) :
    (∀ v, (step g (after g w ops) (.call i)).1 = .ret (.ok v) → v = none) ∧
    (∀ r, (step g (after g w ops) (.poll i)).1 = .polled (.ok r) → r.value = .rvoid) := by
  obtain ⟨o, c', us', ho, heq, hsh⟩ := vars_of_tree g w ops i _ ht
  cases heq
  rw [step_call g _ i o ho, step_poll g _ i o ho]
  refine ⟨?_, ?_⟩
  · intro v h
    simp only [Obs.ret.injEq] at h
    obtain ⟨r, _, hx⟩ := (call0_result g c us o _ hsh).1 v h
    rw [hx, if_neg hv]
  · intro r h
    simp only [Obs.polled.injEq] at h
    exact evalN_void g c us o _ hsh hv r h

/-- **C12** (for glue that keeps the cache): a lazy `void` function reports `is_changed` exactly on its
first evaluation. When it runs is stated by `C06_runs_iff_changed` for all return types. -/
theorem C12_void_changed_once_partial (hr : ReflNe D) (g : Glue) (hg : g.keepsCache) (w : W)
    (ops : List (Op D W E S)) (hub : ∀ ob ∈ (run g (State.init w) ops).1, ob ≠ .ret .ub)
    (i : Nat) (c : FnCode D W E S) (us : List (Tree D W E S))
    (ht : (runTrees [] ops)[i]? = some (.lazy c us)) (hv : c.ret ≠ .val) (r : LazyRes D)
    (hp : (step g (after g w ops) (.poll i)).1 = .polled (.ok r)) :
    r.isChanged = true ↔
      (trackAll [] ops (run g (State.init w) ops).1)[i]? = some none := by
  obtain ⟨o, c', us', ho, heq, hsh⟩ := vars_of_tree g w ops i _ ht
  cases heq
  obtain ⟨last, h1, h2⟩ := C11_is_changed_partial hr g hg w ops hub i _ ht r hp
  rw [h1, h2, (C12_void_returns_nothing g w ops i c us ht hv).2 r hp]
  constructor
  · rintro (rfl | ⟨v, rfl, hne⟩)
    · rfl
    · exfalso
      have hl : o.lastVal = some v := by
        have := reach_seen g hg w ops hub
        rw [this] at h1
        simp only [List.getElem?_map] at h1
        rw [ho] at h1
        simpa using h1
      simp only [Shape] at hsh
      obtain ⟨u, cache, ds, rfl, hf, hds, rfl⟩ := hsh
      simp only [Obj.lastVal] at hl
      cases cache with
      | opt q => exact hv hf
      | rv q =>
        simp only [Cache.val?] at hl
        split at hl
        · cases hl; simp [Val.ne] at hne
        · cases hl
  · intro h
    left
    simpa using h

/-- `p = lazy(proc, rd)`: evaluated in worlds 1 and 2; the function runs both times, the change is
reported the first time only; a dependent `q = lazy(count, p, 1)` is not invoked again. -/
example : (run Glue.retained (State.init 1) [.mk proc [.function rd], .poll 0, .poke (· + 1), .poll 0,
        .call 0] : _ × State Int Int Nat Nat).1 =
      [.unit, .polled (.ok ⟨.rvoid, true, true⟩), .unit, .polled (.ok ⟨.rvoid, false, true⟩),
        .ret (.ok none)] ∧
    fnCalls (after Glue.retained 1 [.mk proc [.function rd], .poll 0, .poke (· + 1), .poll 0,
        .call 0] : State Int Int Nat Nat).env.log = [(5, [.data 1]), (5, [.data 2])] :=
  ⟨rfl, rfl⟩

example : fnCalls (after Glue.retained 1 [.mk proc [.function rd], .mk count [.var 0, .value (.data 1)],
      .call 1, .poke (· + 1), .call 1] : State Int Int Nat Nat).env.log =
    [(5, [.data 1]), (11, [.rvoid, .data 1]), (5, [.data 2])] := rfl

/-! ### C13 -/

/-- A variable that is not evaluated in between behaves as it would have: result and events. -/
theorem var_unaffected (g : Glue) (i : Nat) (o : Obj D W E S) (c : FnCode D W E S)
    (us : List (Tree D W E S)) (hsh : Shape (.lazy c us) o) (s : State D W E S)
    (ho : s.vars[i]? = some o) :
    (step g s (.call i)).1 = .ret (call0 g o ⟨s.env.w, []⟩).1 ∧
    (step g s (.call i)).2.env.w = (call0 g o ⟨s.env.w, []⟩).2.2.w ∧
    (step g s (.call i)).2.env.log = s.env.log ++ (call0 g o ⟨s.env.w, []⟩).2.2.log := by
  rw [step_call g s i o ho]
  have := call0_log g c us o hsh s.env.w s.env.log
  simp only
  rw [this]
  exact ⟨rfl, rfl, rfl⟩

/-- **C13**, any glue, arbitrary functions. Copy variable `i`; then run any program that evaluates the
copy (and others) but not the original: calling the original returns, does to the world and logs what
it would have from its state at the time of copying, in the current world. And the same with the roles
exchanged: the copy is not affected by evaluations of the original. -/
theorem C13_copies_independent (g : Glue) (w : W) (ops1 ops2 : List (Op D W E S)) (i k : Nat)
    (t : Tree D W E S) (ht : (runTrees [] ops1)[i]? = some t)
    (hk : k = i ∨ k = (after g w ops1).vars.length)
    (hne : ∀ op ∈ ops2, ¬ op.evaluates k) :
    let s1 := after g w ops1
    let s2 := after g w (ops1 ++ .copy i :: ops2)
    let fresh := step g ⟨s1.vars, ⟨s2.env.w, []⟩⟩ (.call i)
    (step g s2 (.call k)).1 = fresh.1 ∧
    (step g s2 (.call k)).2.env.w = fresh.2.env.w ∧
    (step g s2 (.call k)).2.env.log = s2.env.log ++ fresh.2.env.log := by
  intro s1 s2 fresh
  obtain ⟨o, c, us, ho, rfl, hsh⟩ := vars_of_tree g w ops1 i t ht
  have hcopy : step g s1 (.copy i) = (.unit, { s1 with vars := s1.vars ++ [o] }) := by
    simp only [step]
    rw [ho]
  have hs2 : s2 = (run g (step g s1 (.copy i)).2 ops2).2 := by
    simp only [s2, after, run_append, run]
    rfl
  have hk2 : s2.vars[k]? = some o := by
    rw [hs2]
    refine run_frame g ops2 k o _ ?_ hne
    rw [hcopy]
    rcases hk with rfl | rfl
    · simp only
      rw [List.getElem?_append_left (List.getElem?_eq_some_iff.1 ho).1]
      exact ho
    · simp [s1]
  obtain ⟨h1, h2, h3⟩ := var_unaffected g k o c us hsh s2 hk2
  obtain ⟨f1, f2, f3⟩ := var_unaffected g i o c us hsh ⟨s1.vars, ⟨s2.env.w, []⟩⟩ ho
  refine ⟨h1.trans f1.symm, h2.trans f2.symm, ?_⟩
  rw [h3, f3]
  simp

/-- **C13** for copies made by passing a lazy function as dependency: evaluating the dependent (or
anything else) leaves the original as it was. -/
theorem C13_dependency_copies_independent (g : Glue) (w : W) (ops1 ops2 : List (Op D W E S))
    (f : UFn D W E S) (deps : List (ArgRef D W E S)) (i : Nat) (t : Tree D W E S)
    (ht : (runTrees [] ops1)[i]? = some t)
    (hne : ∀ op ∈ ops2, ¬ op.evaluates i) :
    let s1 := after g w ops1
    let s2 := after g w (ops1 ++ .mk f deps :: ops2)
    let fresh := step g ⟨s1.vars, ⟨s2.env.w, []⟩⟩ (.call i)
    (step g s2 (.call i)).1 = fresh.1 ∧
    (step g s2 (.call i)).2.env.w = fresh.2.env.w ∧
    (step g s2 (.call i)).2.env.log = s2.env.log ++ fresh.2.env.log := by
  intro s1 s2 fresh
  obtain ⟨o, c, us, ho, rfl, hsh⟩ := vars_of_tree g w ops1 i t ht
  have hk2 : s2.vars[i]? = some o := by
    have : s2 = (run g s1 (.mk f deps :: ops2)).2 := by
      simp only [s2, after, run_append]
      rfl
    rw [this]
    refine run_frame g _ i o _ ho ?_
    intro op hop
    rcases List.mem_cons.1 hop with rfl | hop
    · simp [Op.evaluates]
    · exact hne op hop
  obtain ⟨h1, h2, h3⟩ := var_unaffected g i o c us hsh s2 hk2
  obtain ⟨f1, f2, f3⟩ := var_unaffected g i o c us hsh ⟨s1.vars, ⟨s2.env.w, []⟩⟩ ho
  refine ⟨h1.trans f1.symm, h2.trans f2.symm, ?_⟩
  rw [h3, f3]
  simp

/-- A lazy function called in world 1 is copied; the copy is called in world 8; the original still has
its cached value 1 (no dependencies), and a copy made before the first call has none. -/
example : (run Glue.retained (State.init 1) [.mk rd [], .copy 0, .call 0, .copy 0, .poke (· + 7),
      .call 1, .call 2, .call 0] : _ × State Int Int Nat Nat).1 =
    [.unit, .unit, .ret (.ok (some (.data 1))), .unit, .unit, .ret (.ok (some (.data 8))),
      .ret (.ok (some (.data 1))), .ret (.ok (some (.data 1)))] := rfl

example :
    (step Glue.retained (after Glue.retained 1 ([.mk rd [], .call 0] ++ .copy 0 ::
      [.poke (· + 7), .call 1]) : State Int Int Nat Nat) (.call 0)).1 =
    (step Glue.retained ⟨(after Glue.retained 1 [.mk rd [], .call 0] : State Int Int Nat Nat).vars,
      ⟨8, []⟩⟩ (.call 0)).1 :=
  (C13_copies_independent Glue.retained 1 [.mk rd [], .call 0] [.poke (· + 7), .call 1] 0 0
    (.lazy rd.toFnCode []) rfl (.inl rfl) (by simp [Op.evaluates])).1

example :
    (step Glue.retained (after Glue.retained 1 ([.mk rd [], .call 0] ++ .mk sum [.var 0, .function half]
      :: [.poke (· + 7), .call 1]) : State Int Int Nat Nat) (.call 0)).1 =
    (step Glue.retained ⟨(after Glue.retained 1 [.mk rd [], .call 0] : State Int Int Nat Nat).vars,
      ⟨8, []⟩⟩ (.call 0)).1 :=
  (C13_dependency_copies_independent Glue.retained 1 [.mk rd [], .call 0] [.poke (· + 7), .call 1]
    sum [.var 0, .function half] 0 (.lazy rd.toFnCode []) rfl (by simp [Op.evaluates])).1

end Pigro
