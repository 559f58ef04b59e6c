import Verif.Props.LazyA
import Verif.Props.LazyC
import Verif.Proofs.Compare
import Verif.Proofs.Throwing
/-!
# C10 (comparisons), C04/C14/C50 with functions that throw, exactly which glue is fresh; C56 (shared dependencies)
-/
namespace Pigro
open Demo
variable {D W E S O : Type} [CxxData D]

/-! ### C10 -/

/-- **C10**, any glue (so also the pinned code), any reachable state, arbitrary functions: the events `l` of a call or poll of a variable holding `o`
are such that every node of `o` compares exactly once if its function was invoked and returned and it held a value, and not otherwise. -/
theorem C10_comparisons (g : Glue) (w : W) (ops : List (Op D W E S)) (i : Nat) (t : Tree D W E S)
    (ht : (runTrees [] ops)[i]? = some t) (op : Op D W E S) (hop : op.evaluates i) :
    ∃ o l, (after g w ops).vars[i]? = some o ∧ Shape t o ∧
      (step g (after g w ops) op).2.env.log = (after g w ops).env.log ++ l ∧ NodeLog o l := by
  obtain ⟨o, c, us, ho, rfl, hsh⟩ := vars_of_tree g w ops i t ht
  obtain ⟨l, h1, h2⟩ := evalN_nodeLog g o (after g w ops).env
  refine ⟨o, l, ho, hsh, ?_, h2⟩
  cases op with
  | call j =>
    obtain rfl : j = i := hop
    rw [step_call g _ j o ho]
    simp only
    rw [call0_obj g c us o _ hsh]
    exact h1
  | poll j =>
    obtain rfl : j = i := hop
    rw [step_poll g _ j o ho]
    exact h1
  | _ => exact absurd hop (by simp [Op.evaluates])

/-- World 4 to 5: three nodes held a value and were invoked again, and `sum` was not. -/
example : ∃ o l, (after Glue.retained 4 (nested ++ [.call 1, .poke (· + 1)]) : State Int Int Nat Nat).vars[1]? = some o ∧ Shape yT o ∧
    (step Glue.retained (after Glue.retained 4 (nested ++ [.call 1, .poke (· + 1)])) (.call 1)).2.env.log =
      (after Glue.retained 4 (nested ++ [.call 1, .poke (· + 1)])).env.log ++ l ∧ NodeLog o l :=
  C10_comparisons Glue.retained 4 (nested ++ [.call 1, .poke (· + 1)]) 1 yT rfl (.call 1) rfl

example : (cmps (step Glue.retained (after Glue.retained 4 (nested ++ [.call 1, .poke (· + 1)]) : State Int Int Nat Nat) (.call 1)).2.env.log).length = 3 ∧
    (cmps (after Glue.retained 4 (nested ++ [.call 1, .poke (· + 1)]) : State Int Int Nat Nat).env.log).length = 0 := ⟨rfl, rfl⟩

/-! ### C04, C14, C50: functions that throw -/

/-- The meaning of functions that may throw and do not look at their own state and (as wrapped functions) not at the world. -/
def Demo.canonE : MeaningE Int Int Nat Nat Int where
  obs := id
  fn c args := (c.run 0 args 0).1
  leaf c o := (c.run 0 [] o).1

/-- **C04 and C50 with functions that throw** (glue that keeps everything, or whose calls drop everything). After any history - calls that threw
included - a call of a variable returns or throws exactly what evaluating the whole tree eagerly returns or throws now; for the glue that keeps
everything under the condition that no evaluation of that variable, nor of the variables it was made from before it was made, has thrown.

Missing: variables that have thrown, for the glue that keeps everything. `C14_stale_after_throw` and `C50_stale_after_dependency_throw` show that it
fails there; `C14_first_throw_reevaluates_partial` is the case in which nothing had been cached. -/
theorem C50_fresh_unless_thrown_partial (hs : SoundNe D) (g : Glue) (m : MeaningE D W E S O) (w : W) (ops : List (Op D W E S))
    (hok : ∀ t ∈ runTrees [] ops, TreeOkE g m t) (i : Nat) (t : Tree D W E S) (ht : (runTrees [] ops)[i]? = some t)
    (hg : g.Drops ∨ (g.Retains ∧ (marks [] ops (run g (State.init w) ops).1)[i]? = some false)) :
    (step g (after g w ops) (.call i)).1 = .ret (m.result (m.obs (after g w ops).env.w) t) := by
  obtain ⟨o, c, us, ho, rfl, hsh⟩ := vars_of_tree g w ops i t ht
  have hc : ConsE m (.lazy c us) o := by
    rcases hg with hg | ⟨hg, hm⟩
    · exact Pristine.consE m _ o hsh (reach_pristine g hg w ops i _ o ht ho)
    · exact (run_unmarked hs g hg m ops (l := []) (init_inv w) hok ⟨rfl, by simp⟩).2 i _ o hm ht ho
  rw [step_call g _ i o ho, call0_stepE hs g m c us o _ hsh (hok _ (List.mem_of_getElem? ht)) hc]

def Demo.pT : T := .lazy picky.toFnCode [.function rd.toFnCode, .function odd.toFnCode]

theorem Demo.pT_ok (g : Glue) (hg : g.resultByRef = false) : TreeOkE g canonE pT := by
  refine ⟨.lazy _ _ (fun s a w => ⟨rfl, rfl⟩) ?_, .lazy _ _ ?_ ?_, .inl hg⟩
  · intro t ht
    simp at ht
    rcases ht with rfl | rfl <;> exact .function _ (fun s w => ⟨rfl, rfl⟩)
  · intro t ht; simp at ht
  · intro t ht
    simp at ht
    rcases ht with rfl | rfl <;> exact .function _

/-- `p = lazy(picky, rd, odd)` and a copy: after the first has thrown (a dependency in world 5, the function itself in world -2), the copy still
returns and throws what it should. -/
example (w : Int) :
    (step Glue.retained (after Glue.retained 2 [.mk picky [.function rd, .function odd], .call 0, .copy 0, .poke (fun _ => 5), .call 0,
      .poke (fun _ => -2), .call 0, .poke (fun _ => w)] : State Int Int Nat Nat) (.call 1)).1 = .ret (canonE.result w pT) := by
  have h := C50_fresh_unless_thrown_partial soundNe Glue.retained canonE 2 [.mk picky [.function rd, .function odd], .call 0, .copy 0,
    .poke (fun _ => 5), .call 0, .poke (fun _ => -2), .call 0, .poke (fun _ => w)] (by
      intro t ht
      have : t = pT := by
        have h2 : t ∈ [pT, pT] := ht
        simpa using h2
      subst this; exact pT_ok _ rfl) 1 pT rfl (.inr ⟨⟨rfl, rfl, rfl, rfl⟩, rfl⟩)
  rw [h]
  rfl

/-! ### Exactly which glue is fresh -/

/-- **C04, exactly**: of the ways to hand function, dependencies and cache over (results being values), those for which every call of every history
of non-throwing functions returns the eager value are precisely those that keep everything and those whose calls drop everything. -/
theorem C04_exact (g : Glue) (hr : g.resultByRef = false) :
    (∀ (w : Int) (ops : List P) (i : Nat) (t : T), (∀ t ∈ runTrees [] ops, TreeOk g canon t) → (runTrees [] ops)[i]? = some t →
      (step g (after g w ops) (.call i)).1 = .ret (.ok (canon.result (canon.obs (after g w ops).env.w) t))) ↔ g.Retains ∨ g.Drops := by
  constructor
  · intro h
    by_cases hd : g.Drops
    · exact .inr hd
    · obtain ⟨a, b, c⟩ : g.bindFrontCopies = false ∧ g.unwrapParamByValue = false ∧ g.facadeParamByValue = false := by
        simpa [Glue.Drops, not_or] using hd
      cases hb : g.coreParamsByValue with
      | false => exact .inl ⟨a, hb, b, c⟩
      | true =>
        exfalso
        obtain ⟨h1, h2⟩ := C04_half_fixed_stale g a hb b c hr
        have h3 := h 2 [.mk halfArg [.function rd], .call 0, .mk sum [.var 0], .call 1, .poke (fun _ => 4), .call 1, .poke (fun _ => 2)] 1
          (.lazy sum.toFnCode [xT]) (by
            intro t ht
            have ht' : t ∈ [xT, (.lazy sum.toFnCode [xT] : T)] := ht
            simp at ht'
            rcases ht' with rfl | rfl
            · exact xT_ok g (.inl hr)
            · refine ⟨.lazy _ _ sum_ok ?_, .lazy _ _ ?_ ?_, .inl hr⟩
              · intro t ht; simp at ht; subst ht; exact (xT_ok g (.inl hr)).1
              · intro t ht o vs
                simp at ht; subst ht
                simp [xT, Meaning.eager, canon, halfArg, RetTy.regularize]
              · intro t ht; simp at ht; subst ht; exact (xT_ok g (.inl hr)).2.1) rfl
        rw [h1] at h3
        have hw : (after g 2 [.mk halfArg [.function rd], .call 0, .mk sum [.var 0], .call 1, .poke (fun _ => 4), .call 1, .poke (fun _ => 2)] :
            State Int Int Nat Nat).env.w = 2 := by
          simp [after, run, step]
        rw [hw] at h3
        have h4 : canon.result (canon.obs 2) (.lazy sum.toFnCode [xT] : T) = some (.data 1) := h2
        rw [h4] at h3
        simp at h3
  · intro hg w ops i t hok ht
    exact C04_fresh_partial soundNe g hg canon w ops hok i t ht

/-- Both sides hold for the documented design, and neither for the half-repaired glue. -/
example : (Glue.retained.Retains ∨ Glue.retained.Drops) ∧ ¬ (halfFixed.Retains ∨ halfFixed.Drops) := by
  simp [Glue.Retains, Glue.Drops, halfFixed, Glue.retained]

/-- **C50, exactly**: when functions may throw, the glue for which every call of every history returns or throws what eager evaluation does is
precisely the glue whose calls drop everything - that is, lazy functions that do not cache. -/
theorem C50_exact (g : Glue) (hr : g.resultByRef = false) :
    (∀ (w : Int) (ops : List P) (i : Nat) (t : T), (∀ t ∈ runTrees [] ops, TreeOkE g canonE t) → (runTrees [] ops)[i]? = some t →
      (step g (after g w ops) (.call i)).1 = .ret (canonE.result (canonE.obs (after g w ops).env.w) t)) ↔ g.Drops := by
  constructor
  · intro h
    by_cases hd : g.Drops
    · exact hd
    · obtain ⟨a, b, c⟩ : g.bindFrontCopies = false ∧ g.unwrapParamByValue = false ∧ g.facadeParamByValue = false := by
        simpa [Glue.Drops, not_or] using hd
      exfalso
      cases hb : g.coreParamsByValue with
      | false =>
        have h3 := h 3 [.mk picky [.function rd], .call 0, .poke (fun _ => -1), .call 0] 0 (.lazy picky.toFnCode [.function rd.toFnCode]) (by
            intro t ht
            have ht' : t ∈ [(.lazy picky.toFnCode [.function rd.toFnCode] : T)] := ht
            simp at ht'
            subst ht'
            refine ⟨.lazy _ _ (fun s a w => ⟨rfl, rfl⟩) ?_, .lazy _ _ ?_ ?_, .inl hr⟩
            · intro t ht; simp at ht; subst ht; exact .function _ (fun s w => ⟨rfl, rfl⟩)
            · intro t ht o vs
              simp at ht; subst ht
              simp [MeaningE.eager, canonE, rd, RetTy.regularize]
            · intro t ht; simp at ht; subst ht; exact .function _) rfl
        have h5 : (step g (after g 3 [.mk picky [.function rd], .call 0, .poke (fun _ => -1), .call 0] : State Int Int Nat Nat) (.call 0)).1 =
            .ret (.ok (some (.data 3))) ∧
            (after g 3 [.mk picky [.function rd], .call 0, .poke (fun _ => -1), .call 0] : State Int Int Nat Nat).env.w = -1 := by
          obtain ⟨a', b', c', d', e1, e2, e3, e4⟩ := g
          simp only at a b c hb hr
          subst a b c hb hr
          cases e1 <;> cases e2 <;> cases e3 <;> exact ⟨rfl, rfl⟩
        rw [h5.1, h5.2] at h3
        simp [MeaningE.result, MeaningE.eager, MeaningE.eagerL, canonE, picky, rd, RetTy.regularize, toInt] at h3
      | true =>
        obtain ⟨h1, -⟩ := C04_half_fixed_stale g a hb b c hr
        have h3 := h 2 [.mk halfArg [.function rd], .call 0, .mk sum [.var 0], .call 1, .poke (fun _ => 4), .call 1, .poke (fun _ => 2)] 1
          (.lazy sum.toFnCode [xT]) (by
            intro t ht
            have ht' : t ∈ [xT, (.lazy sum.toFnCode [xT] : T)] := ht
            have hx : canonE.Ok xT ∧ canonE.NoLone xT := by
              refine ⟨.lazy _ _ (fun s a w => ⟨rfl, rfl⟩) ?_, .lazy _ _ ?_ ?_⟩
              · intro t ht; simp at ht; subst ht; exact .function _ (fun s w => ⟨rfl, rfl⟩)
              · intro t ht o vs
                simp at ht; subst ht
                simp [MeaningE.eager, canonE, rd, RetTy.regularize]
              · intro t ht; simp at ht; subst ht; exact .function _
            simp at ht'
            rcases ht' with rfl | rfl
            · exact ⟨hx.1, hx.2, .inl hr⟩
            · refine ⟨.lazy _ _ (fun s a w => ⟨rfl, rfl⟩) ?_, .lazy _ _ ?_ ?_, .inl hr⟩
              · intro t ht; simp at ht; subst ht; exact hx.1
              · intro t ht o vs
                simp at ht; subst ht
                simp [xT, MeaningE.eager, MeaningE.eagerL, canonE, halfArg, rd, RetTy.regularize]
              · intro t ht; simp at ht; subst ht; exact hx.2) rfl
        rw [h1] at h3
        have hw : (after g 2 [.mk halfArg [.function rd], .call 0, .mk sum [.var 0], .call 1, .poke (fun _ => 4), .call 1, .poke (fun _ => 2)] :
            State Int Int Nat Nat).env.w = 2 := by
          simp [after, run, step]
        rw [hw] at h3
        simp [MeaningE.result, MeaningE.eager, MeaningE.eagerL, canonE, sum, xT, halfArg, rd, RetTy.regularize, toInt] at h3
  · intro hg w ops i t hok ht
    exact C50_fresh_unless_thrown_partial soundNe g canonE w ops hok i t ht (.inl hg)

/-- The copying glue is one, the documented design is not. -/
example : copying.Drops ∧ ¬ Glue.retained.Drops := by
  simp [Glue.Drops, copying, Glue.asWritten, Glue.retained]

/-! ### C56 -/

/-- Programs that evaluate nothing run the same under any glue. -/
theorem run_no_eval (g g' : Glue) (ops : List (Op D W E S)) : ∀ s : State D W E S, (∀ op ∈ ops, ∀ i, ¬ op.evaluates i) → run g s ops = run g' s ops := by
  induction ops with
  | nil => intro s _; rfl
  | cons op ops ih =>
    intro s h
    have hstep : step g s op = step g' s op := by
      cases op with
      | call i => exact absurd rfl (h (.call i) (by simp) i)
      | poll i => exact absurd rfl (h (.poll i) (by simp) i)
      | _ => rfl
    simp only [run]
    rw [hstep, ih _ (fun op hop => h op (by simp [hop]))]

/-- **C56, exactly** (any glue without dangling): the first call in a program invokes every wrapped function once for every path that leads to it -
once per occurrence in the tree of dependencies - in post-order. -/
theorem C56_once_per_path_partial (hs : SoundNe D) (hr : ReflNe D) (g : Glue) (m : Meaning D W E S O) (w : W) (ops : List (Op D W E S))
    (hne : ∀ op ∈ ops, ∀ i, ¬ op.evaluates i) (hok : ∀ t ∈ runTrees [] ops, TreeOk g m t) (i : Nat) (t : Tree D W E S)
    (ht : (runTrees [] ops)[i]? = some t) :
    fnCalls (step g (after g w ops) (.call i)).2.env.log = m.firstCalls (m.obs (after g w ops).env.w) t := by
  have hlog := congrArg Env.log (C01_construction_evaluates_nothing g w ops hne)
  obtain ⟨o, c, us, ho, rfl, hsh⟩ := vars_of_tree g w ops i t ht
  have hok' := hok _ (List.mem_of_getElem? ht)
  have hp : o.Pristine := by
    refine reach_pristine Glue.asWritten (.inl rfl) w ops i _ o ht ?_
    have : after Glue.asWritten w ops = after g w ops := by
      simp only [after]; rw [run_no_eval Glue.asWritten g ops _ hne]
    exact (congrArg (fun s => s.vars[i]?) this).trans ho
  obtain ⟨r2, o2, env2, he2, _, _, _, _, _, hex⟩ :=
    evalN_stepOk hs g m _ o (after g w ops).env hsh hok'.1 hok'.2.1 hok'.2.2 (Pristine.cons m _ o hsh hp)
  obtain ⟨_, h1, -⟩ := hex hr
  rw [step_call g _ i o ho]
  simp only
  rw [call0_obj g c us o _ hsh, he2]
  simp only
  rw [h1, (expect_pristine m _ _ o hsh hp).1, hlog]
  rfl

/-- `a = lazy(halfArg, rd); b = lazy(sum, a); c = lazy(count, a); d = lazy(sum, b, c)`: `a` is reached along two paths. -/
def Demo.diamond : List P := [.mk halfArg [.function rd], .mk sum [.var 0], .mk count [.var 0], .mk sum [.var 1, .var 2]]

def Demo.bT : T := .lazy sum.toFnCode [xT]
def Demo.cT : T := .lazy count.toFnCode [xT]
def Demo.dT : T := .lazy sum.toFnCode [bT, cT]

theorem Demo.diamond_ok (g : Glue) (hr : g.resultByRef = false) : ∀ t ∈ runTrees [] diamond, TreeOk g canon t := by
  have one : ∀ c : FnCode Int Int Nat Nat, canon.FnOk c → TreeOk g canon (.lazy c [xT]) := by
    intro c hc
    refine ⟨.lazy _ _ hc ?_, .lazy _ _ ?_ ?_, .inl hr⟩
    · intro t ht; simp at ht; subst ht; exact (xT_ok g (.inl hr)).1
    · intro t ht o vs
      simp at ht; subst ht
      simp [xT, Meaning.eager, canon, halfArg, RetTy.regularize]
    · intro t ht; simp at ht; subst ht; exact (xT_ok g (.inl hr)).2.1
  have hb : TreeOk g canon bT := one _ sum_ok
  have hc : TreeOk g canon cT := one _ (fun s a w => ⟨rfl, rfl⟩)
  intro t ht
  have ht' : t ∈ [xT, bT, cT, dT] := ht
  simp at ht'
  rcases ht' with rfl | rfl | rfl | rfl
  · exact xT_ok g (.inl hr)
  · exact hb
  · exact hc
  · refine ⟨.lazy _ _ sum_ok ?_, .lazy _ _ ?_ ?_, .inl hr⟩
    · intro t ht; simp at ht; rcases ht with rfl | rfl
      · exact hb.1
      · exact hc.1
    · intro t ht; simp at ht
    · intro t ht; simp at ht; rcases ht with rfl | rfl
      · exact hb.2.1
      · exact hc.2.1

/-- **C56 is false** (every glue without dangling, the documented design included): one call of `d` invokes the function of `a` twice. The
dependencies are copied, so that there are two objects. -/
theorem C56_evaluated_twice (g : Glue) (hr : g.resultByRef = false) (w : Int) :
    fnCalls (step g (after g w diamond : State Int Int Nat Nat) (.call 3)).2.env.log =
      [(4, [.data w]), (3, [.data (w / 2)]), (4, [.data w]), (11, [.data (w / 2)]), (3, [.data (w / 2), .data 1])] := by
  rw [C56_once_per_path_partial soundNe reflNe g canon w diamond (by simp [diamond, Op.evaluates]) (diamond_ok g hr) 3 dT rfl]
  have hw : (after g w diamond : State Int Int Nat Nat).env.w = w := rfl
  rw [hw]
  simp [dT, bT, cT, xT, Meaning.firstCalls, Meaning.eager, canon, sum, halfArg, rd, count, RetTy.regularize, toInt]

/-- **C56**, what holds (any glue, any reachable state, arbitrary functions): one call invokes a user function at most once for each path to it; so at
most once if there is one path only.

Missing: several paths (`C56_evaluated_twice`, `C56_once_per_path_partial`). -/
theorem C56_at_most_once_per_path_partial (g : Glue) (w : W) (ops : List (Op D W E S)) (i : Nat) (t : Tree D W E S)
    (ht : (runTrees [] ops)[i]? = some t) (n : Nat) :
    ∃ evs, (step g (after g w ops) (.call i)).2.env.log = (after g w ops).env.log ++ evs ∧ (calls evs).count n ≤ t.postIds.count n := by
  obtain ⟨evs, h1, h2, -⟩ := C21_each_function_at_most_once g w ops i t ht
  exact ⟨evs, h1, h2.count_le n⟩

example : ∃ evs, (step Glue.retained (after Glue.retained 5 diamond : State Int Int Nat Nat) (.call 3)).2.env.log =
    (after Glue.retained 5 diamond : State Int Int Nat Nat).env.log ++ evs ∧ (calls evs).count 4 ≤ 2 := by
  have h := C56_at_most_once_per_path_partial Glue.retained 5 diamond 3 dT rfl 4
  have h2 : dT.postIds.count 4 = 2 := by simp [dT, bT, cT, xT, Tree.postIds, sum, halfArg, rd, count]
  rwa [h2] at h

end Pigro
