import Verif.Proofs.EffHistory
import Verif.Props.LazyEff
/-!
# C81: comparisons and copies that throw or have effects, over whole programs
-/
namespace Pigro.Eff
variable {D W E S O : Type} [CxxData D]

/-- The state after a program. -/
abbrev after (g : Glue) (ops : Ops D W E) (w : W) (prog : List (Op D W E S)) : State D W E S := (run g ops (State.init w) prog).2

/-! ### Refinement -/

/-- States of `Model/History.lean`. -/
def State.forget (s : State D W E S) : Pigro.State D W E S := ⟨s.vars, s.env.forget⟩

theorem step_forget (g : Glue) (s : State D W E S) (op : Op D W E S) :
    Pigro.step g s.forget op = ((step g .pure s op).1, (step g .pure s op).2.forget) := by
  cases op with
  | mk f deps =>
    simp only [Pigro.step, step, State.forget]
    rcases (resolveAll s.vars deps).bind (pigroLazy f) with _ | o <;> rfl
  | copy i =>
    simp only [Pigro.step, step, State.forget]
    rcases s.vars[i]? with _ | o <;> rfl
  | call i =>
    simp only [Pigro.step, step, State.forget]
    rcases s.vars[i]? with _ | o
    · rfl
    · simp only
      rw [C67_refines]
  | poll i =>
    simp only [Pigro.step, step, State.forget]
    rcases s.vars[i]? with _ | o
    · rfl
    · simp only
      rw [evalN_forget]
  | poke h => rfl

theorem run_forget (g : Glue) (prog : List (Op D W E S)) : ∀ s : State D W E S,
    Pigro.run g s.forget prog = ((run g .pure s prog).1, (run g .pure s prog).2.forget) := by
  induction prog with
  | nil => intro s; rfl
  | cons op prog ih =>
    intro s
    rw [Pigro.run, run, step_forget]
    simp only
    rw [ih]

/-- **C81**, the models agree: with comparisons that are pure and copies that succeed, every program does exactly what it does in `Model/History.lean`: same
results, same variables, same world, same invocations and comparisons. -/
theorem C81_refines (g : Glue) (w : W) (prog : List (Op D W E S)) :
    Pigro.run g (Pigro.State.init w) prog = ((run g .pure (State.init w) prog).1, (after g .pure w prog).forget) :=
  run_forget g prog (State.init w)

/-! ### Freshness -/

/-- **C81** (partial). In full: whatever user-defined comparisons and copies of results do, as long as functions do not observe it, a call returns or throws what evaluating the
whole tree eagerly does now, unless it is left with an exception of a comparison or a copy made in this call.

Here: for lazy functions neither of which, nor of the variables they were made from before they were made, an evaluation was left with an exception (of whatever origin); and for glue that keeps nothing for all.
Comparisons may throw, have effects, depend on the world and find differences where there are none. Missing: variables that have thrown (`C81_stale`). -/
theorem C81_fresh_partial (g : Glue) (ops : Ops D W E) (hs : ops.Sound) (m : MeaningE D W E S O) (hu : ops.Unobserved m.obs) (w : W)
    (prog : List (Op D W E S)) (hok : ∀ t ∈ runTrees [] prog, TreeOkE g m t) (i : Nat) (t : Tree D W E S) (ht : (runTrees [] prog)[i]? = some t)
    (hg : g.Drops ∨ (g.Retains ∧ (marks [] prog (run g ops (State.init w) prog).1)[i]? = some false)) :
    ∃ l, (step g ops (after g ops w prog) (.call i)).2.env.log = (after g ops w prog).env.log ++ l ∧
      ((step g ops (after g ops w prog) (.call i)).1 = .ret (m.result (m.obs (after g ops w prog).env.w) t) ∨
       ∃ e, (step g ops (after g ops w prog) (.call i)).1 = .ret (.thrown e) ∧ Fault l e) := by
  have key : Inv (runTrees [] prog) (after g ops w prog).vars ∧
      ∀ o, (after g ops w prog).vars[i]? = some o → ConsE m t o := by
    rcases hg with hg | ⟨hg, hm⟩
    · have hz : ∀ t ∈ runTrees [] prog, ∃ c us, t = .lazy c us := (reach_inv Glue.retained w prog).lz
      obtain ⟨h1, h2⟩ := reach_has (all := true) g ops w prog
        ⟨pristine_built, fun t ht o env hsh hp _ => by
          obtain ⟨c, us, rfl⟩ := hz t ht
          exact dropped_pristine g ops hg c us o env hsh hp⟩
      exact ⟨h1, fun o ho => Pristine.consE m t o (h1.shape.get? ht ho) (h2.2 i t o (.inr rfl) ht ho)⟩
    · obtain ⟨h1, h2⟩ := reach_has (all := false) g ops w prog
        ⟨consE_built m, fun t ht o env hsh hc hn => by
          obtain ⟨k1, k2, k3⟩ := hok t ht
          obtain ⟨q, o', env', l, he, -, -, hq⟩ := evalN_stepX g ops hs m hu t o env hsh k1 k2 k3 hc
          rw [he] at hn ⊢
          rcases hq with ⟨e, rfl, -⟩ | ⟨r, rfl, -, -, -, hr⟩
          · rcases hn with hn | hn
            · exact absurd rfl (hn e)
            · cases hn
          · exact (hr hg).1⟩
      exact ⟨h1, fun o ho => h2.2 i t o (.inl hm) ht ho⟩
  obtain ⟨hi, hcons⟩ := key
  have hlt : i < (after g ops w prog).vars.length := by
    rw [← hi.shape.length]; exact (List.getElem?_eq_some_iff.1 ht).1
  have ho := List.getElem?_eq_getElem hlt
  obtain ⟨c, us, rfl⟩ := hi.lz t (List.mem_of_getElem? ht)
  have hsh := hi.shape.get? ht ho
  obtain ⟨k1, k2, k3⟩ := hok _ (List.mem_of_getElem? ht)
  obtain ⟨q, o', env', l, he, hl, -, hq⟩ := evalN_stepX g ops hs m hu _ _ (after g ops w prog).env hsh k1 k2 k3 (hcons _ ho)
  obtain ⟨c2, c3⟩ := call0_result g ops c us _ (after g ops w prog).env hsh
  rw [step_call g ops _ i _ ho]
  refine ⟨l, ?_, ?_⟩
  · simp only
    rw [call0_obj g ops c us _ _ hsh, he]
    exact hl
  · simp only
    rcases hq with ⟨e, rfl, hee | hf⟩ | ⟨r, rfl, hv, hlive, -⟩
    · refine .inl ?_
      rw [(c2 e).2 (by rw [he])]
      simp [MeaningE.result, hee]
    · exact .inr ⟨e, by rw [(c2 e).2 (by rw [he])], hf⟩
    · refine .inl ?_
      rw [c3 r (by rw [he]) hlive]
      simp [MeaningE.result, hv]

/-! ### A program -/

/-- The world: a variable `x` and how many comparisons were made. -/
abbrev ExW := Nat × Nat

/-- A comparison that counts, throws from 10 on, and finds a difference every third time. Copies throw from 20 on, leaving 99. -/
def countingOps : Ops Nat ExW Unit where
  ne a b w := match a, b with
    | .data a, .data b => (if 10 ≤ a then .error () else .ok (a != b || w.2 % 3 == 2), (w.1, w.2 + 1))
    | _, _ => (.ok true, (w.1, w.2 + 1))
  store _ r w := match r with
    | .data a => if a < 20 then (.ok (), r, w) else (.error (), .data 99, w)
    | _ => (.ok (), r, w)

/-- `[&] { return x; }` -/
def cRead : UFn Nat ExW Unit Unit := { id := 0, ret := .val, run := fun s _ w => (.ok (.data w.1), s, w), st := () }
/-- `[](int a) { return a / 2; }` -/
def cHalf : UFn Nat ExW Unit Unit :=
  { id := 1, ret := .val, run := fun s a w => (match a with
    | [.data x] => .ok (.data (x / 2))
    | _ => .error (), s, w), st := () }

/-- Values and exceptions of these functions. -/
def cMeaning : MeaningE Nat ExW Unit Unit Nat where
  obs w := w.1
  fn c args := (c.run () args (0, 0)).1
  leaf c o := (c.run () [] (o, 0)).1

/-- `h = lazy(half, [&] { return x; })` -/
def cTree : Tree Nat ExW Unit Unit := .lazy cHalf.toFnCode [.function cRead.toFnCode]

theorem cTree_ok : TreeOkE Glue.retained cMeaning cTree := by
  refine ⟨.lazy _ _ (fun s a w => ⟨rfl, rfl⟩) ?_, .lazy _ _ ?_ ?_, .inl rfl⟩
  · intro t ht; simp at ht; subst ht; exact .function _ (fun s w => ⟨rfl, rfl⟩)
  · intro t ht o vs
    simp at ht; subst ht
    simp [MeaningE.eager, cMeaning, cRead, RetTy.regularize]
  · intro t ht; simp at ht; subst ht; exact .function _

theorem countingOps_sound : countingOps.Sound := by
  intro a b w h
  cases a <;> cases b <;> simp only [countingOps] at h
  case data.data a b =>
    split at h
    · cases h
    · simp at h
      rw [h.1]
  all_goals cases h

theorem countingOps_unobserved : countingOps.Unobserved (fun w : ExW => w.1) := by
  refine ⟨fun a b w => ?_, fun o r w => ?_⟩
  · cases a <;> cases b <;> simp [countingOps]
  · cases r <;> simp [countingOps]
    split <;> rfl

/-- `h` and a copy, `x` going from 3 to 4, 12, 13 and finally to any `x`: comparing 12 with 13 throws in a call of `h`; the copy, which has not thrown, returns the right value or
throws itself. Until then, it does not throw if comparing does not. -/
def cProg (x : Nat) : List (Op Nat ExW Unit Unit) :=
  [.mk cHalf [.function cRead], .call 0, .copy 0, .poke (fun w => (4, w.2)), .call 0, .call 1, .poke (fun w => (12, w.2)), .call 0,
    .poke (fun w => (13, w.2)), .call 0, .poke (fun w => (x, w.2))]

example : (run Glue.retained countingOps (State.init (3, 0)) (cProg 7)).1 =
    [.unit, .ret (.ok (some (.data 1))), .unit, .unit, .ret (.ok (some (.data 2))), .ret (.ok (some (.data 2))), .unit, .ret (.ok (some (.data 6))),
      .unit, .ret (.thrown ()), .unit] := by rfl

example (x : Nat) : ∃ l, (step Glue.retained countingOps (after Glue.retained countingOps (3, 0) (cProg x)) (.call 1)).2.env.log =
      (after Glue.retained countingOps (3, 0) (cProg x)).env.log ++ l ∧
    ((step Glue.retained countingOps (after Glue.retained countingOps (3, 0) (cProg x)) (.call 1)).1 =
        .ret (cMeaning.result (cMeaning.obs (after Glue.retained countingOps (3, 0) (cProg x)).env.w) cTree) ∨
      ∃ e, (step Glue.retained countingOps (after Glue.retained countingOps (3, 0) (cProg x)) (.call 1)).1 = .ret (.thrown e) ∧ Fault l e) :=
  C81_fresh_partial Glue.retained countingOps countingOps_sound cMeaning countingOps_unobserved (3, 0) (cProg x)
    (by
      intro t ht
      have h2 : t ∈ [cTree, cTree] := ht
      have : t = cTree := by simpa using h2
      subst this; exact cTree_ok) 1 cTree rfl (.inr ⟨⟨rfl, rfl, rfl, rfl⟩, rfl⟩)

/-! ### The conditions are needed -/

/-- `[](int a) { return a + 10; }` -/
def cAdd : UFn Nat ExW Unit Unit :=
  { id := 2, ret := .val, run := fun s a w => (match a with
    | [.data x] => .ok (.data (x + 10))
    | _ => .error (), s, w), st := () }
/-- `[](int a, int b) { return 100 * a + b; }` -/
def cPair : UFn Nat ExW Unit Unit :=
  { id := 3, ret := .val, run := fun s a w => (match a with
    | [.data x, .data y] => .ok (.data (100 * x + y))
    | _ => .error (), s, w), st := () }

/-- **C81**, the full claim is false: `h = lazy(add, [&] { return x; })`, called with `x` 0, then 1, then 1 again. In the second call, the dependency has stored its 1 when comparing
10 with 11 throws; in the third call, it has not changed, and `h` returns the 10 of `x = 0`, where eager evaluation gives 11. No comparison throws in that call. -/
theorem C81_stale :
    (run Glue.retained countingOps (State.init (0, 0))
        [.mk cAdd [.function cRead], .call 0, .poke (fun _ => (1, 0)), .call 0, .poke (fun _ => (1, 0)), .call 0]).1 =
      [.unit, .ret (.ok (some (.data 10))), .unit, .ret (.thrown ()), .unit, .ret (.ok (some (.data 10)))] ∧
    (marks [] [.mk cAdd [.function cRead], .call 0, .poke (fun _ => (1, 0)), .call 0, .poke (fun _ => (1, 0))]
      (run Glue.retained countingOps (State.init (0, 0))
        [.mk cAdd [.function cRead], .call 0, .poke (fun _ => (1, 0)), .call 0, .poke (fun _ => (1, 0))]).1) = [true] ∧
    cMeaning.result 1 (.lazy cAdd.toFnCode [.function cRead.toFnCode]) = .ok (some (.data 11)) := ⟨rfl, rfl, rfl⟩

/-- A comparison that never finds a difference. -/
def blindOps : Ops Nat ExW Unit where
  ne _ _ w := (.ok false, w)
  store _ r w := (.ok (), r, w)

/-- `Ops.Sound` is needed: with `blindOps`, which are unobserved and never throw, `h = lazy(half, [&] { return x; })` returns 1 for ever. -/
theorem C81_blind : blindOps.Unobserved (fun w : ExW => w.1) ∧
    (run Glue.retained blindOps (State.init (3, 0)) [.mk cHalf [.function cRead], .call 0, .poke (fun w => (8, w.2)), .call 0]).1 =
      [.unit, .ret (.ok (some (.data 1))), .unit, .ret (.ok (some (.data 1)))] ∧
    cMeaning.result 8 cTree = .ok (some (.data 4)) := ⟨⟨fun _ _ _ => rfl, fun _ _ _ => rfl⟩, rfl, rfl⟩

/-- A comparison that changes `x`. -/
def meddlingOps : Ops Nat ExW Unit where
  ne a b w := match a, b with
    | .data a, .data b => (.ok (a != b), (w.1 + 1, w.2))
    | _, _ => (.ok true, w)
  store _ r w := (.ok (), r, w)

/-- `Ops.Unobserved` is needed: with `meddlingOps`, which are sound and never throw, `lazy(pair, [&] { return x; }, [&] { return x; })` called twice with `x = 3` returns 304 the second time,
since comparing the result of the first dependency changes `x` before the second reads it. -/
theorem C81_meddling : meddlingOps.Sound ∧
    (run Glue.retained meddlingOps (State.init (3, 0)) [.mk cPair [.function cRead, .function cRead], .call 0, .call 0]).1 =
      [.unit, .ret (.ok (some (.data 303))), .ret (.ok (some (.data 304)))] ∧
    (after Glue.retained meddlingOps (3, 0) [.mk cPair [.function cRead, .function cRead], .call 0]).env.w = (3, 0) ∧
    cMeaning.result 3 (.lazy cPair.toFnCode [.function cRead.toFnCode, .function cRead.toFnCode]) = .ok (some (.data 303)) := by
  refine ⟨fun a b w h => ?_, rfl, rfl, rfl⟩
  cases a <;> cases b <;> simp_all [meddlingOps]

/-- Spurious differences only cost: the third comparison of `countingOps` finds 2 and 2 different, so `half` is invoked again; the result is right. -/
example : ((run Glue.retained countingOps (State.init (3, 0))
      [.mk cHalf [.function cRead], .call 0, .poke (fun _ => (4, 2)), .call 0, .poke (fun _ => (4, 2)), .call 0]).1,
    (after Glue.retained countingOps (3, 0)
      [.mk cHalf [.function cRead], .call 0, .poke (fun _ => (4, 2)), .call 0, .poke (fun _ => (4, 2)), .call 0]).env.log.getLast?) =
    ([.unit, .ret (.ok (some (.data 1))), .unit, .ret (.ok (some (.data 2))), .unit, .ret (.ok (some (.data 2)))],
      some (.store (some (.data 2)) (.data 2) (.ok ()))) := by rfl

end Pigro.Eff
