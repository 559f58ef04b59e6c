import Verif.Proofs.GlueRun
import Verif.Proofs.Sharing
import Verif.Props.LazyMem
/-!
# C80: the copies are all that keeps lazy functions from working

`runMG (lang Θ moved) g`: client programs at the level of objects, addresses and lifetimes, as `runM` (Model/LazyMem.lean, Model/LazyMake.lean), but
each `auto` parameter on the way to the user's function, and the copies made by `bind_tuple.h`, are by reference if `g` says so
(Model/LazyGlue.lean). `Glue.asWritten` is the pinned code (`C80_as_written`). What a client sees is what `run g` says (`C80_composed`), results being
returned by value or, as the deduction guide lazy.h:23-24 has it, by reference; including which of these references dangle. So all that is proved of
`run g`, for glue that retains state, holds of the objects in memory. One thing `run g` does not see: if results refer to the constants themselves,
constants must not be of empty type (`ConstantsStored`, `C80_empty_constant_dangles`).
-/
namespace Pigro.LM
open Cxx Demo
variable {D W E S O : Type} [CxxData D]

/-- The code with some of the by-value parameters as they are is the code. -/
theorem C80_as_written (Λ : LLang D W E S) (s : MState D W E S) (ops : List (Op D W E S)) :
    runMG Λ Glue.asWritten s ops = runM Λ true s ops ∧ runMG Λ { Glue.asWritten with resultByRef := false } s ops = runM Λ false s ops :=
  ⟨runMG_written Λ true ops s, runMG_written Λ false ops s⟩

/-- **C80.** Whichever of the parameters are passed by reference instead of by value, and results too: every client program, run at
memory level, shows the client what `run g` says, and leaves the same world and the same log behind. (Callables of empty type have no state.) -/
theorem C80_composed (Θ : Empties D W E S) (hΘ : Stateless Θ) (moved : MV D W E S → MV D W E S) (g : Glue) (hst : ConstantsStored Θ g) (w : W)
    (ops : List (Op D W E S)) :
    (runMG (lang Θ moved) g (MState.init w) ops).1 = (run g (State.init w) ops).1.map seen ∧
      (runMG (lang Θ moved) g (MState.init w) ops).2.mem.world = (run g (State.init w) ops).2.env := by
  obtain ⟨h1, h2⟩ := runMG_spec Θ hΘ moved g hst ops (MState.init w) (State.init w) (simG_init w)
  exact ⟨h1, h2.env⟩

omit [CxxData D] in
theorem ConstantsStored.ofValue {Θ : Empties D W E S} {g : Glue} (h : g.resultByRef = false) : ConstantsStored Θ g := fun h' => by rw [h] at h'; simp at h'

/-- The callables of empty type of the examples have no state. -/
theorem empties_stateless : Stateless empties := by
  intro u k h vs w
  have h1 := empties.fn_one u k h
  have h2 : u = worldFn ∨ u = plus := by
    have : ([worldFn, plus] : List F)[k]? = some u := h1
    have := List.mem_of_getElem? this
    simpa using this
  rcases h2 with rfl | rfl <;> rfl

/-- Members of empty type and others, with everything by reference: the second call of `y` invokes only the plain functions; the third, after the
world has changed, everything; the log is in `mem.world`. -/
example : (runMG (lang empties (fun _ => .unit)) .retained (MState.init 5) (withEmpty ++ [.call 1, .call 1, .poke (· + 2), .call 1, .poll 0]) :
      _ × MState Int Int Nat Nat).1 =
    [.unit, .unit, .ret (.ok (some (.data 34))), .ret (.ok (some (.data 34))), .unit, .ret (.ok (some (.data 42))), .polled (.ok (some (.data 21), true))] ∧
    fnCalls (runMG (lang empties (fun _ => .unit)) .retained (MState.init 5) (withEmpty ++ [.call 1, .call 1]) :
      _ × MState Int Int Nat Nat).2.mem.world.log = fnCalls (runMG (lang empties (fun _ => .unit)) .retained (MState.init 5) (withEmpty ++ [.call 1]) :
      _ × MState Int Int Nat Nat).2.mem.world.log := by
  refine ⟨(C80_composed _ empties_stateless _ _ (.ofValue rfl) _ _).1.trans rfl, ?_⟩
  rw [(C80_composed _ empties_stateless _ _ (.ofValue rfl) _ _).2, (C80_composed _ empties_stateless _ _ (.ofValue rfl) _ _).2]
  rfl

/-- Some by value, some by reference: with `auto... deps` still copied, the caches of the inner lazy functions are lost. -/
example : let g : Glue := { Glue.retained with coreParamsByValue := true }
    (runMG (lang empties (fun _ => .unit)) g (MState.init 2) [.mk halfArg [.function rd], .mk sum [.var 0], .call 1, .poke (fun _ => 4), .call 1] :
      _ × MState Int Int Nat Nat).1 =
    [.unit, .unit, .ret (.ok (some (.data 1))), .unit, .ret (.ok (some (.data 2)))] :=
  (C80_composed _ empties_stateless _ _ (.ofValue rfl) _ _).1.trans rfl

/-- These callables are of empty type, but no constant. -/
noncomputable def emptyFns : Empties Int Int Nat Nat := Empties.only [worldFn, plus] []

theorem emptyFns_ok (g : Glue) : Stateless emptyFns ∧ ConstantsStored emptyFns g := by
  refine ⟨?_, fun _ _ v => by simp [emptyFns, Empties.only]⟩
  intro u k h vs w
  have h1 := emptyFns.fn_one u k h
  have : ([worldFn, plus] : List F)[k]? = some u := h1
  have := List.mem_of_getElem? this
  simp only [List.mem_cons, List.not_mem_nil, or_false] at this
  rcases this with rfl | rfl <;> rfl

/-- Everything by reference, and results by reference as well: nothing dangles (unless the function returns `void`). -/
example : let g : Glue := { Glue.retained with resultByRef := true }
    (runMG (lang emptyFns (fun _ => .unit)) g (MState.init 5) (withEmpty ++ [.call 1, .call 1, .poke (· + 2), .call 1, .poll 0]) :
      _ × MState Int Int Nat Nat).1 =
    [.unit, .unit, .ret (.ok (some (.data 34))), .ret (.ok (some (.data 34))), .unit, .ret (.ok (some (.data 42))), .polled (.ok (some (.data 21), true))] :=
  (C80_composed _ (emptyFns_ok .retained).1 _ _ (emptyFns_ok _).2 _ _).1.trans rfl

/-- Results by reference, and only the parameter of `unwrap_value` (lazy.h:38) by value: the reference is to something inside the copy. -/
example : let g : Glue := { Glue.retained with resultByRef := true, unwrapParamByValue := true }
    (runMG (lang emptyFns (fun _ => .unit)) g (MState.init 5) (withEmpty ++ [.poll 0, .call 0]) : _ × MState Int Int Nat Nat).1 =
    [.unit, .unit, .polled (.ok (none, true)), .ret .ub] :=
  (C80_composed _ (emptyFns_ok .retained).1 _ _ (emptyFns_ok _).2 _ _).1.trans rfl

/-- The constant 7 is of empty type, say `std::integral_constant<int, 7>`. -/
def emptySeven : Empties Int Int Nat Nat where
  fn _ := none
  val v := match v with | .data 7 => some 0 | _ => none
  fnOf _ := none
  valOf _ := some (.data 7)
  fn_one := by simp
  val_one := by
    intro v k h
    split at h
    · rfl
    · simp at h

/-- **C80.** `ConstantsStored` is necessary: `lazy(plus, seven)`, everything by reference, results too. `run g` says 7, but in memory the
reference made by `lazy_value` (lazy.h:71) is to the temporary that `compressed_tuple` makes of an element of empty type (compressed_tuple.h:20-22). -/
theorem C80_empty_constant_dangles :
    let g : Glue := { Glue.retained with resultByRef := true }
    (runMG (lang emptySeven (fun _ => .unit)) g (MState.init 5) [.mk plus [.value (.data 7)], .call 0] : _ × MState Int Int Nat Nat).1 = [.unit, .ret .ub] ∧
    (run g (State.init 5) [.mk plus [.value (.data 7)], .call 0] : _ × State Int Int Nat Nat).1 = [.unit, .ret (.ok (some (.data 7)))] := by
  have key : ∀ l : List (Seen Int Nat), (match l with | [.unit, .ret .ub] => true | _ => false) = true → l = [.unit, .ret .ub] := by
    intro l h
    split at h
    · rfl
    · simp at h
  exact ⟨key _ (by decide +kernel), rfl⟩

/-! ### What follows -/

/-- A call in any history. -/
theorem runMG_call (Θ : Empties D W E S) (hΘ : Stateless Θ) (moved : MV D W E S → MV D W E S) (g : Glue) (hst : ConstantsStored Θ g) (w : W)
    (ops : List (Op D W E S)) (op : Op D W E S) :
    let t := (runMG (lang Θ moved) g (MState.init w) ops).2
    let s := after g w ops
    (stepMG (lang Θ moved) g t op).1 = seen (step g s op).1 ∧ t.mem.world = s.env ∧ (stepMG (lang Θ moved) g t op).2.mem.world = (step g s op).2.env := by
  obtain ⟨-, h2⟩ := runMG_spec Θ hΘ moved g hst ops (MState.init w) (State.init w) (simG_init w)
  obtain ⟨h3, h4⟩ := stepMG_spec Θ hΘ moved g hst _ _ h2 op
  exact ⟨h3, h2.env, h4.env⟩

/-- **C80.** With references instead of copies, in every history, a call at memory level returns what evaluating the tree eagerly returns now. -/
theorem C80_fresh (hs : SoundNe D) (Θ : Empties D W E S) (hΘ : Stateless Θ) (moved : MV D W E S → MV D W E S) (g : Glue) (hst : ConstantsStored Θ g)
    (hr : g.Retains) (m : Meaning D W E S O) (w : W) (ops : List (Op D W E S)) (hok : ∀ t ∈ runTrees [] ops, TreeOk g m t) (i : Nat)
    (t : Tree D W E S) (ht : (runTrees [] ops)[i]? = some t) :
    let s := (runMG (lang Θ moved) g (MState.init w) ops).2
    (stepMG (lang Θ moved) g s (.call i)).1 = .ret (.ok (m.result (m.obs s.mem.world.w) t)) := by
  intro s
  obtain ⟨h1, h2, -⟩ := runMG_call Θ hΘ moved g hst w ops (.call i)
  have h3 := congrArg seen (C04_fresh_partial hs g (.inl hr) m w ops hok i t ht)
  rw [show s.mem.world = (after g w ops).env from h2]
  exact h1.trans h3

example : (stepMG (lang empties (fun _ => .unit)) .retained
      (runMG (lang empties (fun _ => .unit)) .retained (MState.init 5) (nested ++ [.call 1, .poke (· + 2), .copy 1, .call 2]) : _ × MState Int Int Nat Nat).2
      (.call 1)).1 =
    .ret (.ok (some (.data 16))) := by
  have hok : ∀ t ∈ runTrees [] (nested ++ [.call 1, .poke (· + 2), .copy 1, .call 2]), TreeOk .retained canon t := by
    intro t ht
    have htr : runTrees [] (nested ++ [.call 1, .poke (· + 2), .copy 1, .call 2]) = [xT, yT, yT] := rfl
    rw [htr] at ht
    simp only [List.mem_cons, List.not_mem_nil, or_false] at ht
    rcases ht with rfl | rfl | rfl
    · exact xT_ok _ (.inl rfl)
    · exact yT_ok _ (.inl rfl) (.inl rfl)
    · exact yT_ok _ (.inl rfl) (.inl rfl)
  have h := C80_fresh soundNe empties empties_stateless (fun _ => .unit) .retained (.ofValue rfl) ⟨rfl, rfl, rfl, rfl⟩ canon 5
    (nested ++ [.call 1, .poke (· + 2), .copy 1, .call 2]) hok 1 yT rfl
  refine h.trans ?_
  have hw : (runMG (lang empties (fun _ => .unit)) .retained (MState.init 5) (nested ++ [.call 1, .poke (· + 2), .copy 1, .call 2]) :
      _ × MState Int Int Nat Nat).2.mem.world.w = 7 := by
    rw [(C80_composed _ empties_stateless _ _ (.ofValue rfl) _ _).2]
    rfl
  simp [Meaning.result, yT, xT, Meaning.eager, canon, sum, halfArg, rd, half, RetTy.regularize, toInt, hw]

/-- **C80.** With references instead of copies, a call at memory level invokes exactly the functions some dependency of which has, since the last
call, changed, and compares exactly what was evaluated again: `m.recalc` and `m.recmp` of Spec/Recalc.lean. -/
theorem C80_recalculation (hs : SoundNe D) (hr : ReflNe D) (Θ : Empties D W E S) (hΘ : Stateless Θ) (moved : MV D W E S → MV D W E S) (g : Glue)
    (hst : ConstantsStored Θ g) (hret : g.Retains) (m : Meaning D W E S O) (w : W) (ops1 ops2 : List (Op D W E S)) (i : Nat) (t : Tree D W E S)
    (ht : (runTrees [] ops1)[i]? = some t) (hok : ∀ t ∈ runTrees [] ops1, TreeOk g m t) (hne : ∀ op ∈ ops2, ¬ op.evaluates i) :
    let s1 := (runMG (lang Θ moved) g (MState.init w) ops1).2
    let s2 := (runMG (lang Θ moved) g (MState.init w) (ops1 ++ .call i :: ops2)).2
    let s3 := (stepMG (lang Θ moved) g s2 (.call i)).2
    fnCalls s3.mem.world.log = fnCalls s2.mem.world.log ++ m.recalc (m.obs s1.mem.world.w) (m.obs s2.mem.world.w) t ∧
    cmps s3.mem.world.log = cmps s2.mem.world.log ++ m.recmp (m.obs s1.mem.world.w) (m.obs s2.mem.world.w) t := by
  intro s1 s2 s3
  obtain ⟨-, h1, -⟩ := runMG_call Θ hΘ moved g hst w ops1 (.call i)
  obtain ⟨-, h2, h3⟩ := runMG_call Θ hΘ moved g hst w (ops1 ++ .call i :: ops2) (.call i)
  rw [show s1.mem.world = _ from h1, show s2.mem.world = _ from h2, show s3.mem.world = _ from h3]
  exact (C05_exact_recalculation_partial hs hr g hret m w ops1 ops2 i t ht hok hne).2

/-- The nested example, from world 5 through 9 back to 5: nothing is invoked. -/
example : let s2 := (runMG (lang empties (fun _ => .unit)) .retained (MState.init 5) (nested ++ .call 1 :: [.poke (· + 4), .poke (· - 4)]) :
      _ × MState Int Int Nat Nat).2
    fnCalls (stepMG (lang empties (fun _ => .unit)) .retained s2 (.call 1)).2.mem.world.log = fnCalls s2.mem.world.log := by
  intro s2
  rw [(C80_recalculation soundNe reflNe empties empties_stateless (fun _ => .unit) .retained (.ofValue rfl) ⟨rfl, rfl, rfl, rfl⟩ canon 5 nested
    [.poke (· + 4), .poke (· - 4)] 1 yT rfl nested_ok (by simp [Op.evaluates])).1, (C80_composed _ empties_stateless _ _ (.ofValue rfl) _ _).2,
    (C80_composed _ empties_stateless _ _ (.ofValue rfl) _ _).2]
  have h1 : (run Glue.retained (State.init 5) nested : _ × State Int Int Nat Nat).2.env.w = 5 := rfl
  have h2 : (run Glue.retained (State.init 5) (nested ++ .call 1 :: [.poke (· + 4), .poke (· - 4)]) : _ × State Int Int Nat Nat).2.env.w = 5 := rfl
  rw [h1, h2, recalc_self reflNe, List.append_nil]

/-- **C80.** Each of four copies is enough to break lazy functions; so all four have to go. As long as `bind_front` copies the closure, or the
`f` of `unwrap_value` (lazy.h:38) or of `unregularized_void` (regular_void.h:29) is passed by value, every call at memory level invokes a function without
dependencies again, whatever it does. -/
theorem C80_copies_reinvoke (Θ : Empties D W E S) (hΘ : Stateless Θ) (moved : MV D W E S → MV D W E S) (g : Glue) (hst : ConstantsStored Θ g)
    (hd : g.Drops) (f : UFn D W E S) (w : W) (n : Nat) :
    fnCalls (runMG (lang Θ moved) g (MState.init w) (.mk f [] :: List.replicate n (.call 0))).2.mem.world.log = List.replicate n (f.id, []) := by
  rw [(C80_composed Θ hΘ moved g hst w _).2]
  have h := C02_dropped_reinvokes g hd f w (List.replicate n (.call 0)) (by intro op hop; exact .inl (List.eq_of_mem_replicate hop))
  have hc : ∀ n, countCalls 0 (List.replicate n (.call 0) : List (Op D W E S)) = n := by
    intro n
    induction n with
    | zero => rfl
    | succ n ih => simp [List.replicate_succ, countCalls, ih, Nat.add_comm]
  rw [hc] at h
  exact h

/-- Only the parameter of `unwrap_value` by value. -/
example : fnCalls (runMG (lang empties (fun _ => .unit)) { Glue.retained with unwrapParamByValue := true } (MState.init 5)
      [.mk worldFn [], .call 0, .call 0, .call 0] : _ × MState Int Int Nat Nat).2.mem.world.log = [(11, []), (11, []), (11, [])] :=
  C80_copies_reinvoke empties empties_stateless (fun _ => .unit) _ (.ofValue rfl) (.inr (.inl rfl)) worldFn 5 3

/-- And as long as only the parameters `f` and `deps` of `detail::lazy` (lazy.h:50) are passed by value, calls at memory level return stale values: here 2,
with the world at 2, of which half is 1. -/
theorem C80_half_repaired_stale (Θ : Empties Int Int Nat Nat) (hΘ : Stateless Θ) (moved : MV Int Int Nat Nat → MV Int Int Nat Nat) (g : Glue)
    (ha : g.bindFrontCopies = false) (hb : g.coreParamsByValue = true) (hc : g.unwrapParamByValue = false) (hd : g.facadeParamByValue = false)
    (hr : g.resultByRef = false) :
    (stepMG (lang Θ moved) g (runMG (lang Θ moved) g (MState.init 2) [.mk halfArg [.function rd], .call 0, .mk sum [.var 0], .call 1,
        .poke (fun _ => 4), .call 1, .poke (fun _ => 2)]).2 (.call 1)).1 = .ret (.ok (some (.data 2))) ∧
    canon.result 2 (.lazy sum.toFnCode [.lazy halfArg.toFnCode [.function rd.toFnCode]] : T) = some (.data 1) := by
  obtain ⟨h1, h2⟩ := C04_half_fixed_stale g ha hb hc hd hr
  obtain ⟨h3, -⟩ := runMG_call Θ hΘ moved g (.ofValue hr) 2 [.mk halfArg [.function rd], .call 0, .mk sum [.var 0], .call 1,
        .poke (fun _ => 4), .call 1, .poke (fun _ => 2)] (.call 1)
  exact ⟨h3.trans (congrArg seen h1), h2⟩

example : (stepMG (lang empties (fun _ => .unit)) { Glue.retained with coreParamsByValue := true }
      (runMG (lang empties (fun _ => .unit)) { Glue.retained with coreParamsByValue := true } (MState.init 2)
        [.mk halfArg [.function rd], .call 0, .mk sum [.var 0], .call 1, .poke (fun _ => 4), .call 1, .poke (fun _ => 2)] : _ × MState Int Int Nat Nat).2
      (.call 1)).1 = .ret (.ok (some (.data 2))) :=
  (C80_half_repaired_stale empties empties_stateless (fun _ => .unit) { Glue.retained with coreParamsByValue := true } rfl rfl rfl rfl rfl).1

/-- **C80.** As long as no result dangles by the rules of C16, no call and no poll in any history has undefined behaviour at memory level, and what a poll returns can be
read. -/
theorem C80_defined (Θ : Empties D W E S) (hΘ : Stateless Θ) (moved : MV D W E S → MV D W E S) (g : Glue) (hst : ConstantsStored Θ g) (w : W)
    (ops : List (Op D W E S)) (i : Nat) (t : Tree D W E S) (ht : (runTrees [] ops)[i]? = some t) (hsafe : g.SafeFor t) :
    let s := (runMG (lang Θ moved) g (MState.init w) ops).2
    ((∃ v, (stepMG (lang Θ moved) g s (.call i)).1 = .ret (.ok v)) ∨ ∃ e, (stepMG (lang Θ moved) g s (.call i)).1 = .ret (.thrown e)) ∧
    ((∃ v b, (stepMG (lang Θ moved) g s (.poll i)).1 = .polled (.ok (some v, b))) ∨ ∃ e, (stepMG (lang Θ moved) g s (.poll i)).1 = .polled (.thrown e)) := by
  intro s
  obtain ⟨h1, -, -⟩ := runMG_call Θ hΘ moved g hst w ops (.call i)
  obtain ⟨h2, -, -⟩ := runMG_call Θ hΘ moved g hst w ops (.poll i)
  obtain ⟨⟨r, h3, h4⟩, ⟨q, h5, h6, h7⟩⟩ := C16_no_dangling_partial g w ops i t ht hsafe
  rw [h3] at h1
  rw [h5] at h2
  constructor
  · rcases r with v | e | _ | _
    · exact .inl ⟨v, h1⟩
    · exact .inr ⟨e, h1⟩
    all_goals simp [Out.defined] at h4
  · rcases q with v | e | _ | _
    · refine .inl ⟨v.value, v.isChanged, h2.trans ?_⟩
      simp [seen, Out.map, h7 v rfl]
    · exact .inr ⟨e, h2⟩
    all_goals simp [Out.defined] at h6

theorem yT_noVoid : yT.NoVoid := by
  refine .lazy _ _ rfl fun t ht => ?_
  simp only [List.mem_cons, List.not_mem_nil, or_false] at ht
  rcases ht with rfl | rfl | rfl
  · refine .lazy _ _ rfl fun t ht => ?_
    simp only [List.mem_cons, List.not_mem_nil, or_false] at ht
    subst ht
    exact .function _ rfl
  · exact .value _
  · exact .function _ rfl

/-- Results by reference to caches that stay where they are. -/
example : let g : Glue := { Glue.retained with resultByRef := true }
    let s := (runMG (lang emptyFns (fun _ => .unit)) g (MState.init 5) (nested ++ [.call 1, .poke (· + 2)]) : _ × MState Int Int Nat Nat).2
    ((∃ v, (stepMG (lang emptyFns (fun _ => .unit)) g s (.call 1)).1 = .ret (.ok v)) ∨ ∃ e, (stepMG (lang emptyFns (fun _ => .unit)) g s (.call 1)).1 = .ret (.thrown e)) :=
  (C80_defined emptyFns (emptyFns_ok .retained).1 (fun _ => .unit) { Glue.retained with resultByRef := true } (emptyFns_ok _).2 5 (nested ++ [.call 1, .poke (· + 2)]) 1 yT rfl
    (.inr ⟨rfl, rfl, rfl, rfl, yT_noVoid⟩)).1

/-- **C80.** As long as results are by reference and `bind_front` copies the closure, or `unwrap_value` its `f`, every call at memory level that does not throw has undefined
behaviour. -/
theorem C80_dangles (Θ : Empties D W E S) (hΘ : Stateless Θ) (moved : MV D W E S → MV D W E S) (g : Glue) (hst : ConstantsStored Θ g) (hr : g.resultByRef = true)
    (hc : g.bindFrontCopies = true ∨ g.unwrapParamByValue = true) (w : W) (ops : List (Op D W E S)) (i : Nat) (t : Tree D W E S) (ht : (runTrees [] ops)[i]? = some t) :
    let s := (runMG (lang Θ moved) g (MState.init w) ops).2
    (stepMG (lang Θ moved) g s (.call i)).1 = .ret .ub ∨ ∃ e, (stepMG (lang Θ moved) g s (.call i)).1 = .ret (.thrown e) := by
  intro s
  obtain ⟨h1, -, -⟩ := runMG_call Θ hΘ moved g hst w ops (.call i)
  rcases C16_copies_dangle g hr hc w ops i t ht with h | ⟨e, h⟩
  · rw [h] at h1; exact .inl h1
  · rw [h] at h1; exact .inr ⟨e, h1⟩

/-- Everything by reference but the `f` of `unwrap_value`. -/
example : let g : Glue := { Glue.retained with resultByRef := true, unwrapParamByValue := true }
    let s := (runMG (lang emptyFns (fun _ => .unit)) g (MState.init 5) (nested ++ [.poke (· + 2)]) : _ × MState Int Int Nat Nat).2
    (stepMG (lang emptyFns (fun _ => .unit)) g s (.call 1)).1 = .ret .ub ∨ ∃ e, (stepMG (lang emptyFns (fun _ => .unit)) g s (.call 1)).1 = .ret (.thrown e) :=
  C80_dangles emptyFns (emptyFns_ok .retained).1 (fun _ => .unit) _ (emptyFns_ok _).2 rfl (.inr rfl) 5 (nested ++ [.poke (· + 2)]) 1 yT rfl

/-- **C80.** An operation changes at most the object it evaluates: no other variable, no other object, and none ceases to exist. -/
theorem C80_others_untouched (Θ : Empties D W E S) (hΘ : Stateless Θ) (moved : MV D W E S → MV D W E S) (g : Glue) (hst : ConstantsStored Θ g) (w : W)
    (ops : List (Op D W E S)) (op : Op D W E S) :
    let t := (runMG (lang Θ moved) g (MState.init w) ops).2
    ∀ a < t.mem.next, (stepMG (lang Θ moved) g t op).2.mem.alive a = t.mem.alive a ∧
      ((∀ i, op.evaluates i → t.vars[i]? ≠ some a) → (stepMG (lang Θ moved) g t op).2.mem.get a = t.mem.get a) := by
  intro t a ha
  obtain ⟨-, h2⟩ := runMG_spec Θ hΘ moved g hst ops (MState.init w) (State.init w) (simG_init w)
  have h := stepMG_keeps Θ hΘ moved g hst _ _ h2 op
  exact ⟨h.alive a ha, fun hi => h.frame a ha fun ⟨i, h1, h2⟩ => hi i h1 h2⟩

/-- The two objects of the nested program are different, so calling one leaves the other as it is. -/
example : let t := (runMG (lang empties (fun _ => .unit)) .retained (MState.init 5) nested : _ × MState Int Int Nat Nat).2
    ∀ a, t.vars[0]? = some a → a < t.mem.next → (stepMG (lang empties (fun _ => .unit)) .retained t (.call 1)).2.mem.get a = t.mem.get a := by
  intro t a h0 ha
  refine (C80_others_untouched empties empties_stateless (fun _ => .unit) .retained (.ofValue rfl) 5 nested (.call 1) a ha).2 ?_
  intro i hi h1
  have hap := (runMG_spec empties empties_stateless (fun _ => .unit) .retained (.ofValue rfl) nested (MState.init 5) (State.init 5) (simG_init 5)).2.apart
  have hi : 1 = i := hi
  subst hi
  obtain ⟨l0, e0⟩ := List.getElem?_eq_some_iff.1 h0
  obtain ⟨l1, e1⟩ := List.getElem?_eq_some_iff.1 h1
  exact List.pairwise_iff_getElem.1 hap 0 1 l0 l1 (by omega) (e0.trans e1.symm)

end Pigro.LM
