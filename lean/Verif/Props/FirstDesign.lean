import Verif.Proofs.FirstDesignFresh
import Verif.Props.LazyD
/-!
# C68: the current design against the first documented design
-/
namespace Pigro
open Demo
variable {D W E S O : Type} [CxxData D]

/-- **C68**. Every program (any lazy functions, dependencies, copies, calls, changes of the world; functions with arbitrary effects and own state; no
`x(nullptr)`, which the first design lacks) has, in the design of lazy.h with its objects called in place and in the first design with its
`dependencies_cache`, the same results up to and including the first exception; and if nothing throws, also the same effects on the world and the same
invocations of the same functions in the same order with the same arguments and own states. `==` has to be an equivalence relation, not more.

Missing: what happens after an exception; `C68_after_throw` shows that the designs differ there. -/
theorem C68_same_partial (he : EquivNe D) (w : W) (ops : List (Op D W E S)) (hp : ∀ op ∈ ops, op.isPoll = false) :
    untilThrow (run .retained (State.init w) ops).1 = untilThrow (drun (DState.init w) ops).1 ∧
    ((run .retained (State.init w) ops).1.any Obs.threw = false →
      (run .retained (State.init w) ops).1 = (drun (DState.init w) ops).1 ∧
      (run .retained (State.init w) ops).2.env.w = (drun (DState.init w) ops).2.env.w ∧
      invocations (run .retained (State.init w) ops).2.env.log = invocations (drun (DState.init w) ops).2.env.log) := by
  have h0 : Linked (DState.init w : DState D W E S) (State.init w) := ⟨by simp [DState.init, State.init, SameL], by simp [DState.init], rfl, rfl⟩
  obtain ⟨h1, h2⟩ := linked_run he ops h0 (by simpa using hp)
  refine ⟨h1.symm, fun hn => ⟨?_, (h2 hn).env.1.symm, (h2 hn).env.2.symm⟩⟩
  have hall : ∀ {l l' : List (Obs D E)}, untilThrow l = untilThrow l' → l.any Obs.threw = false → l = l' := by
    intro l
    induction l with
    | nil =>
      intro l' h _
      cases l' with
      | nil => rfl
      | cons a l' => simp only [untilThrow] at h; split at h <;> cases h
    | cons a l ih =>
      intro l' h ha
      simp only [List.any_cons, Bool.or_eq_false_iff] at ha
      cases l' with
      | nil => simp [untilThrow, ha.1] at h
      | cons b l' =>
        simp only [untilThrow, ha.1, Bool.false_eq_true, if_false] at h
        split at h
        · rename_i hb
          simp only [List.cons.injEq] at h
          rw [h.1, hb] at ha
          cases ha.1
        · simp only [List.cons.injEq] at h
          rw [h.1, ih h.2 ha.2]
  exact hall h1.symm hn

/-- `==` of integers. -/
theorem Demo.equivNe : EquivNe Int :=
  ⟨reflNe, fun a b h => by have := soundNe a b h; subst this; exact h, fun a b c h h' => by have := soundNe a b h; subst this; exact h'⟩

/-- Remainder modulo 10 as user data: `==` is coarser than identity. -/
structure Demo.Mod10 where
  n : Int

instance : CxxData Demo.Mod10 := ⟨fun a b => a.n % 10 != b.n % 10, ⟨0⟩⟩

theorem Demo.equivMod10 : EquivNe Demo.Mod10 := by
  refine ⟨?_, ?_, ?_⟩ <;> simp only [CxxData.ne, bne_self_eq_false, bne_eq_false_iff_eq, implies_true] <;> intros <;> simp_all

/-- A program with shared, nested and stateful functions: `a = lazy(sum, rd, tick)`, `b = lazy(halfArg, a)`, `c` a copy of `b`. -/
def Demo.prog : List P := [.mk sum [.function rd, .function tick], .mk halfArg [.var 0], .call 1, .copy 1, .poke (· + 1), .call 2, .call 0, .poke (fun _ => -4),
  .mk picky [.var 2, .value (.data 0)], .call 3, .call 1]

/-- Its results: the last but one call throws, in both designs. -/
example : (run .retained (State.init 5) prog : _ × State Int Int Nat Nat).1 = [.unit, .unit, .ret (.ok (some (.data 2))), .unit, .unit,
    .ret (.ok (some (.data 3))), .ret (.ok (some (.data 6))), .unit, .unit, .ret (.thrown 7), .ret (.ok (some (.data (-2))))] := rfl

example : untilThrow (run .retained (State.init 5) prog : _ × State Int Int Nat Nat).1 = untilThrow (drun (DState.init 5) prog).1 :=
  (C68_same_partial equivNe 5 prog (by decide)).1

/-- With a coarser `==`: the function sees 3, then (after the call that saw 13 and left everything as it was) 24. -/
example : let q : List (Op Mod10 Int Nat Nat) := [.mk ⟨⟨2, .val, fun s vs w => (.ok (vs.headD .rvoid), s + 1, w)⟩, 0⟩ [.function ⟨⟨1, .val,
      fun s _ w => (.ok (.data ⟨w⟩), s + 1, w)⟩, 0⟩], .call 0, .poke (· + 10), .call 0, .poke (· + 11), .call 0]
    (run .retained (State.init 3) q).1 = (drun (DState.init 3) q).1 ∧
    invocations (run .retained (State.init 3) q).2.env.log = invocations (drun (DState.init 3) q).2.env.log := by
  intro q
  have h := C68_same_partial Demo.equivMod10 3 q (by decide)
  exact ⟨(h.2 rfl).1, (h.2 rfl).2.2⟩

/-- **C68, comparisons**: a call in which no wrapped function has to be invoked compares, in the design of lazy.h, one pair of values per plain function
of the tree (that returns something); in the first design one pair per dependency of every lazy function of the tree.

Missing: calls in which a function is invoked. There the first design, which stops at the first difference, may make fewer comparisons:
`C68_more_comparisons`. -/
theorem C68_comparisons_partial (he : EquivNe D) (w : W) (ops : List (Op D W E S)) (hp : ∀ op ∈ ops, op.isPoll = false)
    (hn : (run .retained (State.init w) ops).1.any Obs.threw = false) (i : Nat) (t : Tree D W E S) (ht : (runTrees [] ops)[i]? = some t)
    (l dl : List (Ev D S))
    (hl : (step .retained (after .retained w ops) (.call i)).2.env.log = (after .retained w ops).env.log ++ l)
    (hdl : (dstep (drun (DState.init w) ops).2 (.call i)).2.env.log = (drun (DState.init w) ops).2.env.log ++ dl)
    (hok : (step .retained (after .retained w ops) (.call i)).1.threw = false) (hf : fnCalls l = []) :
    (cmps l).length = t.plainFunctions ∧ (cmps dl).length = t.dependencies := by
  have h0 : Linked (DState.init w : DState D W E S) (State.init w) := ⟨by simp [DState.init, State.init, SameL], by simp [DState.init], rfl, rfl⟩
  have hL := (linked_run he ops h0 (by simpa using hp)).2 hn
  have hI := drun_inv (O := Unit) ⟨fun _ => (), fun _ _ => .ok .rvoid, fun _ _ => .ok .rvoid⟩ ops
    (⟨by simp [DState.init], by simp [DState.init], by simp⟩ : InvD _ [] (DState.init w : DState D W E S))
  rcases sameL_get hL.vars i with ⟨h1, _⟩ | ⟨d, o, h1, h2, hs⟩
  · have : (runTrees [] ops)[i]? = none := by rw [← hI.trees, List.getElem?_map, h1]; rfl
    rw [this] at ht; cases ht
  · have htr : d.tree = t := by
      rw [← hI.trees, List.getElem?_map, h1] at ht
      exact Option.some.inj ht
    subst htr
    obtain ⟨q, o', env', q', d', denv', hev, hdc, _, hcase⟩ := inStep he d o _ _ hs hL.env
    obtain ⟨f, c, dc, ds, rfl⟩ := hL.lz d (List.mem_of_getElem? h1)
    have hs' := hs
    simp only [Same] at hs'
    obtain ⟨os, _, _, rfl, _⟩ := hs'
    rw [evalN_facade] at hev
    rcases hx : evalN Glue.retained (.core (.regularized f) c os) (run Glue.retained (State.init w) ops).2.env with ⟨p, i', env''⟩
    rw [hx] at hev
    simp only [Prod.mk.injEq] at hev
    obtain ⟨e1, e2, e3⟩ := hev
    subst e2 e3
    simp only [step, after, h2, call0_facade, hx] at hl hok
    simp only [dstep, h1, hdc] at hdl
    rcases hcase with ⟨e, rfl, rfl⟩ | ⟨r, rfl, rfl, _, _, _, _, l', dl', k1, k2, k3, _⟩
    · cases p <;> simp only [Out.map] at e1 <;> cases e1
      simp [Obs.threw] at hok
    · rw [k1] at hl
      rw [k2] at hdl
      have e4 := List.append_cancel_left hl
      have e5 := List.append_cancel_left hdl
      subst e4 e5
      exact k3 (.inr ⟨_, _, _, _, rfl⟩) hf

/-- `b = lazy(halfArg, lazy(sum, rd, 40))`, called twice in world 2. -/
def Demo.still : List P := [.mk sum [.function rd, .value (.data 40)], .mk halfArg [.var 0], .call 1]

/-- The second call compares once in the design of lazy.h and three times in the first design. -/
example : ∃ l dl, (step .retained (after .retained 2 still : State Int Int Nat Nat) (.call 1)).2.env.log = (after .retained 2 still).env.log ++ l ∧
    (dstep (drun (DState.init 2) still).2 (.call 1)).2.env.log = (drun (DState.init 2) still).2.env.log ++ dl ∧ (cmps l).length = 1 ∧ (cmps dl).length = 3 :=
  ⟨[.call .dep 1 [] 1 2, .cmp (.data 2) (.data 2)],
    [.call .dep 1 [] 1 2, .cmp (.data 2) (.data 2), .cmp (.data 40) (.data 40), .cmp (.data 42) (.data 42)], rfl, rfl, by
    have h := C68_comparisons_partial equivNe 2 still (by decide) rfl 1 (.lazy halfArg.toFnCode [.lazy sum.toFnCode [.function rd.toFnCode, .value (.data 40)]]) rfl
      [.call .dep 1 [] 1 2, .cmp (.data 2) (.data 2)]
      [.call .dep 1 [] 1 2, .cmp (.data 2) (.data 2), .cmp (.data 40) (.data 40), .cmp (.data 42) (.data 42)] rfl rfl rfl rfl
    simpa [Tree.plainFunctions, Tree.dependencies, rd] using h⟩

/-- **C68, comparisons, is false in general**: when two plain functions have changed, the design of lazy.h compares both and the result, the first
design only the first one. -/
theorem C68_more_comparisons : let q : List P := [.mk sum [.function rd, .function half], .call 0, .poke (fun _ => 9), .call 0]
    (cmps (run .retained (State.init 2) q).2.env.log).length = 3 ∧ (cmps (drun (DState.init 2) q).2.env.log).length = 1 := ⟨rfl, rfl⟩

/-- **C68, the first design is always right**: after any history, calls that threw included, a call returns or throws exactly what evaluating the whole
tree eagerly returns or throws now. (For the design of lazy.h see `C50_fresh_unless_thrown_partial`.) -/
theorem C68_first_design_fresh (hs : SoundNe D) (m : MeaningE D W E S O) (w : W) (ops : List (Op D W E S)) (i : Nat) (t : Tree D W E S)
    (ht : (runTrees [] ops)[i]? = some t) (hok : m.Ok t) (hnl : m.NoLone t) :
    (dstep (drun (DState.init w) ops).2 (.call i)).1 = .ret (m.result (m.obs (drun (DState.init w) ops).2.env.w) t) := by
  have hI := drun_inv m ops (⟨by simp [DState.init], by simp [DState.init], by simp⟩ : InvD m [] (DState.init w : DState D W E S))
  have ht' := ht
  rw [← hI.trees, List.getElem?_map] at ht
  rcases hv : (drun (DState.init w) ops).2.vars[i]? with _ | d
  · rw [hv] at ht; cases ht
  rw [hv] at ht
  simp only [Option.map_some, Option.some.injEq] at ht
  subst ht
  obtain ⟨k1, _⟩ := fresh_call hs m d (drun (DState.init w) ops).2.env (hI.cons d (List.mem_of_getElem? hv)) hok hnl
  obtain ⟨c, us, hcu⟩ := hI.lz d.tree (List.mem_of_getElem? ht')
  simp only [dstep, hv]
  rw [k1]
  cases d with
  | value v => simp [DObj.tree] at hcu
  | function u => simp [DObj.tree] at hcu
  | lazy f c dc ds =>
    simp only [MeaningE.result, DObj.tree, DObj.isVoid]
    rcases m.eager (m.obs (drun (DState.init w) ops).2.env.w) (.lazy f.toFnCode (ds.map DObj.tree)) with e | v
    · rfl
    · by_cases hr : f.ret = .val <;> simp [outOf, Out.map, hr]

/-- `p = lazy(picky, rd, odd)`: after an exception of a dependency (world 5) and one of the function itself (world -2), right in every world. -/
example (w : Int) :
    (dstep (drun (DState.init 2) [.mk picky [.function rd, .function odd], .call 0, .poke (fun _ => 5), .call 0, .poke (fun _ => -2), .call 0,
      .poke (fun _ => w)] : _ × DState Int Int Nat Nat).2 (.call 0)).1 = .ret (canonE.result w pT) := by
  have h := C68_first_design_fresh soundNe canonE 2 [.mk picky [.function rd, .function odd], .call 0, .poke (fun _ => 5), .call 0, .poke (fun _ => -2), .call 0,
      .poke (fun _ => w)] 0 pT rfl (pT_ok .retained rfl).1 (pT_ok .retained rfl).2.1
  rw [h]
  rfl

/-- **C68 is false after an exception**: the program of `C14_stale_after_throw`. The design of lazy.h returns the value cached before the exception; the
first design calls the function again. -/
theorem C68_after_throw : let q : List P := [.mk picky [.function rd], .call 0, .poke (fun _ => -1), .call 0, .call 0]
    (run .retained (State.init 3) q).1 = [.unit, .ret (.ok (some (.data 3))), .unit, .ret (.thrown 7), .ret (.ok (some (.data 3)))] ∧
    (drun (DState.init 3) q).1 = [.unit, .ret (.ok (some (.data 3))), .unit, .ret (.thrown 7), .ret (.thrown 7)] := ⟨rfl, rfl⟩

/-- A function that throws keeps what it did to its own state and the world: after that, the variable is as if made with the function in its new state. -/
theorem C68_goes_on (f : UFn D W E S) (w w1 : W) (e : E) (s1 : S) (h : f.run f.st [] w = (.error e, s1, w1)) :
    drun (DState.init w) [.mk f [], .call 0] =
      ([.unit, .ret (.thrown e)], ⟨(drun (DState.init w1) [.mk { f with st := s1 } []]).2.vars, ⟨w1, [.call .fn f.id [] f.st s1]⟩⟩) := by
  have hc : (Cache.empty f.ret : Cache D).engaged = false := by cases f.ret <;> rfl
  simp [drun, dstep, DState.init, dobjs, DObj.call, DObj.callAll, hc, tupleCTAD, UFn.invoke, h, Out.map, conditionCmps]

/-- A function that succeeds when it is called for the second time. -/
example : let flaky : F := ⟨⟨9, .val, fun s _ w => (if s = 0 then .error 7 else .ok (.data s), s + 1, w)⟩, 0⟩
    (drun (DState.init 3) [.mk flaky [], .call 0, .call 0, .call 0] : _ × DState Int Int Nat Nat).1 =
      [.unit, .ret (.thrown 7), .ret (.ok (some (.data 1))), .ret (.ok (some (.data 1)))] := rfl

/-- The same for a dependency that throws: it keeps what it did to its own state, and the function is not invoked. -/
theorem C68_dependency_goes_on (f u : UFn D W E S) (w w1 : W) (e : E) (s1 : S) (hr : u.ret ≠ .void) (h : u.run u.st [] w = (.error e, s1, w1)) :
    drun (DState.init w) [.mk f [.function u], .call 0] =
      ([.unit, .ret (.thrown e)],
        ⟨(drun (DState.init w1) [.mk f [.function { u with st := s1 }]]).2.vars, ⟨w1, [.call .dep u.id [] u.st s1]⟩⟩) := by
  simp [drun, dstep, DState.init, dobjs, ArgRef.dobj, DObj.call, DObj.callAll, UFn.invoke, h, hr, Out.map]

/-- A dependency that succeeds when it is called for the second time. -/
example : let flaky : F := ⟨⟨9, .val, fun s _ w => (if s = 0 then .error 7 else .ok (.data s), s + 1, w)⟩, 0⟩
    (drun (DState.init 3) [.mk sum [.function flaky], .call 0, .call 0] : _ × DState Int Int Nat Nat).1 =
      [.unit, .ret (.thrown 7), .ret (.ok (some (.data 1)))] := rfl

end Pigro
