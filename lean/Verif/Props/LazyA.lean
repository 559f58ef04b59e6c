import Verif.Props.Demo
import Verif.Proofs.LazyHist
/-!
# C01 – C04, C16: construction, call-once, freshness, definedness

`g : Glue` says which of the places that copy in the pinned code do copy. `Glue.asWritten` is the
pinned code. Theorems hold for every `g` with the stated property; the pinned code is covered when
there is no hypothesis on `g`, and treated in separate theorems otherwise.
-/
namespace Pigro
open Demo
variable {D W E S O : Type} [CxxData D]

/-! ### C01 -/

/-- **C01.** A program that only constructs, copies, and changes the outside world invokes no
function and compares nothing; the world is what the outside changes make of it. Any `g`. -/
theorem C01_construction_evaluates_nothing (g : Glue) (w : W) (ops : List (Op D W E S))
    (h : ∀ op ∈ ops, ∀ i, ¬ op.evaluates i) :
    (after g w ops).env = ⟨pokes ops w, []⟩ := by
  suffices H : ∀ s : State D W E S, (run g s ops).2.env = ⟨pokes ops s.env.w, s.env.log⟩ from
    H (State.init w)
  induction ops with
  | nil => intro s; rfl
  | cons op ops ih =>
    intro s
    have ih' := ih (fun op hop => h op (List.mem_cons_of_mem _ hop)) (step g s op).2
    simp only [run]
    rw [ih']
    have hop := h op (by simp)
    cases op with
    | mk f deps => simp only [step, pokes]; split <;> rfl
    | copy i => simp only [step, pokes]; split <;> rfl
    | call i => exact absurd rfl (hop i)
    | poll i => exact absurd rfl (hop i)
    | poke h => rfl

/-- **C01**, inside any history: constructing (from any dependencies, in any state) changes neither
the world nor the log nor the existing variables. -/
theorem C01_construction_in_any_history (g : Glue) (s : State D W E S) (f : UFn D W E S)
    (deps : List (ArgRef D W E S)) :
    (step g s (.mk f deps)).2.env = s.env ∧
    ∃ new, (step g s (.mk f deps)).2.vars = s.vars ++ new := by
  simp only [step]
  split
  · exact ⟨rfl, _, rfl⟩
  · exact ⟨rfl, [], by simp⟩

/-- The program of the example constructs a nested lazy function, copies it, and changes the world. -/
example : ((after Glue.asWritten 5 (nested ++ [.copy 1, .poke (· + 1)])).env =
      (⟨6, []⟩ : Env Int Int Nat)) ∧
    (after Glue.asWritten (5 : Int) (nested ++ [.copy 1, .poke (· + 1)])).vars.length = 3 :=
  ⟨C01_construction_evaluates_nothing _ _ _ (by simp [nested, Op.evaluates]), rfl⟩

/-! ### C02, C03 -/

/-- **C03** (for glue that keeps the cache). `x = lazy(f, v...)`, outside changes, a first call that
returns `v`, then any calls and outside changes: `f` is invoked exactly once, with exactly the values
`v...`, and every call returns the result of that invocation. `f` may be impure.

Missing for the full property: the pinned code does not keep the cache (see
`C02_pinned_reinvokes`), and a single tuple value is unpacked (see `C17_lone_tuple_unpacked`). -/
theorem C03_value_deps_once_partial (g : Glue) (hg : g.keepsCache) (f : UFn D W E S)
    (vs : List (Val D)) (hsafe : g.SafeFor (.lazy f.toFnCode (vs.map .value)))
    (hlone : ∀ v, vs = [v] → ∀ xs, v ≠ .tup xs)
    (w : W) (before : List (W → W)) (x : Val D)
    (hx : (f.run f.st vs (before.foldl (fun w h => h w) w)).1 = .ok x)
    (rest : List (Op D W E S)) (hrest : ∀ op ∈ rest, op = .call 0 ∨ ∃ h, op = .poke h) :
    let p := run g (State.init w) (.mk f (vs.map .value) :: (before.map .poke ++ .call 0 :: rest))
    let result : Obs D E := .ret (.ok (if f.ret = .val then some x else none))
    fnCalls p.2.env.log = [(f.id, vs)] ∧
    p.1 = .unit :: (before.map (fun _ => .unit) ++ result :: rest.map (constOut result)) := by
  intro p result
  have hp : p = run g (State.init w)
      (.mk f (vs.map .value) :: (before.map .poke ++ .call 0 :: rest)) := rfl
  simp only [run, mk_const, run_append, run_pokes] at hp
  let s0 : State D W E S := ⟨[constNode f (Cache.empty f.ret) vs],
    ⟨before.foldl (fun w h => h w) w, []⟩⟩
  obtain ⟨f', cache', env', h1, h2, h3, h4, h5⟩ :=
    call0_const_first g hg f (Cache.empty f.ret) vs s0.env x (Cache.empty_fits f.ret)
      (Cache.empty_val? f.ret) hx hlone hsafe
  have hst := step_call g s0 0 (constNode f (Cache.empty f.ret) vs) rfl
  rw [h1] at hst
  have hret : f'.ret = f.ret := by rw [h2]
  have hrest' := run_const_cached g f' cache' vs (f.ret.regularize x) (by rw [hret]; exact h3) h4
    (by rw [h2]; exact hsafe) rest (step g s0 (.call 0)).2 (by rw [hst]; rfl) hrest
  have hres : (if f'.ret = .val then some (f.ret.regularize x) else none) =
      (if f.ret = .val then some x else none) := by
    rw [hret]; by_cases h : f.ret = .val <;> simp [h, RetTy.regularize]
  rw [hres] at hrest'
  have hs0 : (⟨(State.init w : State D W E S).vars ++ [constNode f (Cache.empty f.ret) vs],
      ⟨before.foldl (fun w h => h w) (State.init w : State D W E S).env.w,
        (State.init w : State D W E S).env.log⟩⟩ : State D W E S) = s0 := rfl
  rw [hs0] at hp
  rw [hp]
  refine ⟨?_, ?_⟩
  · simp only [hrest'.2]
    rw [hst]
    simpa [s0, fnCalls] using h5
  · simp only [hrest'.1]
    rw [hst]

/-- **C02** (for glue that keeps the cache): the case without dependencies. -/
theorem C02_call_once_partial (g : Glue) (hg : g.keepsCache) (f : UFn D W E S)
    (hsafe : g.SafeFor (.lazy f.toFnCode [])) (w : W) (before : List (W → W)) (x : Val D)
    (hx : (f.run f.st [] (before.foldl (fun w h => h w) w)).1 = .ok x)
    (rest : List (Op D W E S)) (hrest : ∀ op ∈ rest, op = .call 0 ∨ ∃ h, op = .poke h) :
    let p := run g (State.init w) (.mk f [] :: (before.map .poke ++ .call 0 :: rest))
    let result : Obs D E := .ret (.ok (if f.ret = .val then some x else none))
    fnCalls p.2.env.log = [(f.id, [])] ∧
    p.1 = .unit :: (before.map (fun _ => .unit) ++ result :: rest.map (constOut result)) :=
  C03_value_deps_once_partial g hg f [] hsafe (by simp) w before x hx rest hrest

/-- A function reading the world, called before and after the world changes: 5, and again 5. -/
example : (run Glue.retained (State.init 4)
      [.mk rd [], .poke (· + 1), .call 0, .poke (· + 1), .call 0] : _ × State Int Int Nat Nat).1 =
    [.unit, .unit, .ret (.ok (some (.data 5))), .unit, .ret (.ok (some (.data 5)))] :=
  (C02_call_once_partial Glue.retained ⟨rfl, rfl, rfl⟩ rd (.inl rfl) 4 [(· + 1)] (.data 5) rfl
    [.poke (· + 1), .call 0] (by simp)).2

example : fnCalls (run Glue.retained (State.init 4)
      (.mk sum [.value (.data 1), .value (.data 2)] :: ([].map .poke ++ .call 0 ::
        [.call 0, .call 0])) : _ × State Int Int Nat Nat).2.env.log = [(3, [.data 1, .data 2])] :=
  (C03_value_deps_once_partial Glue.retained ⟨rfl, rfl, rfl⟩ sum [.data 1, .data 2] (.inl rfl)
    (by simp) 4 [] (.data 3) rfl [.call 0, .call 0] (by simp)).1

/-- **C02 fails wherever the cache is dropped**: every call invokes `f` again, whatever `f` does. -/
theorem C02_dropped_reinvokes (g : Glue) (hg : g.Drops) (f : UFn D W E S) (w : W)
    (rest : List (Op D W E S)) (hrest : ∀ op ∈ rest, op = .call 0 ∨ ∃ h, op = .poke h) :
    fnCalls (after g w (.mk f [] :: rest)).env.log =
      List.replicate (countCalls 0 rest) (f.id, []) := by
  have hmk := mk_const g (State.init w) f []
  simp only [List.map_nil] at hmk
  simp only [after, run, hmk]
  rw [run_nodeps_dropped g hg rest f (Cache.empty f.ret) _ (Cache.empty_fits _)
    (Cache.empty_val? _) rfl hrest]
  simp [State.init, fnCalls]

/-- **C02 is false of the pinned code**: `n` calls, `n` invocations. -/
theorem C02_pinned_reinvokes (f : UFn D W E S) (w : W) (n : Nat) :
    fnCalls (after Glue.asWritten w (.mk f [] :: List.replicate n (.call 0))).env.log =
      List.replicate n (f.id, []) := by
  rw [C02_dropped_reinvokes Glue.asWritten (.inl rfl) f w _
    (by intro op hop; exact .inl (List.eq_of_mem_replicate hop))]
  congr 1
  induction n with
  | zero => rfl
  | succ n ih => simp [List.replicate_succ, countCalls, ih, Nat.add_comm]

example : (fnCalls (after Glue.asWritten 5 [.mk rd [], .call 0, .call 0] : State Int Int Nat Nat).env.log) =
    [(1, []), (1, [])] :=
  C02_pinned_reinvokes rd 5 2

/-! ### C16 -/

/-- **C16** (for glue without dangling references). In every history, no call and no poll has undefined
behaviour or reads a dead object, whatever the functions do (impure, throwing). -/
theorem C16_no_dangling_partial (g : Glue) (w : W) (ops : List (Op D W E S)) (i : Nat)
    (t : Tree D W E S) (ht : (runTrees [] ops)[i]? = some t) (hsafe : g.SafeFor t) :
    (∃ r, (step g (after g w ops) (.call i)).1 = .ret r ∧ r.defined = true) ∧
    (∃ r, (step g (after g w ops) (.poll i)).1 = .polled r ∧ r.defined = true ∧
      ∀ x, r = .ok x → x.live = true) := by
  obtain ⟨o, c, us, ho, rfl, hsh⟩ := vars_of_tree g w ops i t ht
  have hd := evalN_defined g _ _ (after g w ops).env hsh hsafe
  have hr := call0_result g _ _ _ (after g w ops).env hsh
  refine ⟨⟨_, by rw [step_call g _ i o ho], ?_⟩, ⟨_, by rw [step_poll g _ i o ho], hd.1, hd.2⟩⟩
  rcases he : (evalN g o (after g w ops).env).1 with r | e | _ | _
  · rw [hr.2.2.1 r he (hd.2 r he)]; rfl
  · rw [(hr.2.1 e).2 he]; rfl
  · rw [he] at hd; cases hd.1
  · rw [he] at hd; cases hd.1

/-- The nested example under the retaining glue, and a throwing function. -/
example : ∃ r, (step Glue.retained (after Glue.retained 5 nested : State Int Int Nat Nat)
    (.call 1)).1 = .ret r ∧ r.defined = true :=
  (C16_no_dangling_partial Glue.retained 5 nested 1 yT rfl (.inl rfl)).1

/-- Where results are references and the callee works on a copy, no call ever returns a value: it
throws, or reads a dead object. -/
theorem C16_copies_dangle (g : Glue) (hr : g.resultByRef = true)
    (hc : g.bindFrontCopies = true ∨ g.unwrapParamByValue = true) (w : W)
    (ops : List (Op D W E S)) (i : Nat) (t : Tree D W E S)
    (ht : (runTrees [] ops)[i]? = some t) :
    (step g (after g w ops) (.call i)).1 = .ret .ub ∨
    ∃ e, (step g (after g w ops) (.call i)).1 = .ret (.thrown e) := by
  obtain ⟨o, c, us, ho, rfl, hsh⟩ := vars_of_tree g w ops i t ht
  rw [step_call g _ i o ho]
  rcases call0_dangles g hr hc c us o (after g w ops).env hsh with h | ⟨e, h⟩
  · exact .inl (by rw [h])
  · exact .inr ⟨e, by rw [h]⟩

/-- **C16 is false of the pinned code**: every call that does not throw reads a dead object. -/
theorem C16_pinned_dangles (w : W) (ops : List (Op D W E S)) (i : Nat) (t : Tree D W E S)
    (ht : (runTrees [] ops)[i]? = some t) :
    (step Glue.asWritten (after Glue.asWritten w ops) (.call i)).1 = .ret .ub ∨
    ∃ e, (step Glue.asWritten (after Glue.asWritten w ops) (.call i)).1 = .ret (.thrown e) :=
  C16_copies_dangle Glue.asWritten rfl (.inl rfl) w ops i t ht

example : (step Glue.asWritten (after Glue.asWritten 5 [.mk rd []] : State Int Int Nat Nat)
    (.call 0)).1 = .ret .ub := rfl

/-! ### C04 -/

/-- **C04** (for glue that either keeps everything or drops all caches, and does not dangle). In every
history, every call returns what evaluating the whole tree eagerly returns now.

Missing for the full property: glue that keeps some but not all of the state
(`C04_half_fixed_stale` shows it false there), dangling results (`C04_pinned_never_returns`), lone
tuple values (`C04_lone_tuple`), throwing functions (C14, C15). -/
theorem C04_fresh_partial (hs : SoundNe D) (g : Glue) (hg : g.Retains ∨ g.Drops)
    (m : Meaning D W E S O) (w : W) (ops : List (Op D W E S))
    (hok : ∀ t ∈ runTrees [] ops, TreeOk g m t) (i : Nat) (t : Tree D W E S)
    (ht : (runTrees [] ops)[i]? = some t) :
    (step g (after g w ops) (.call i)).1 =
      .ret (.ok (m.result (m.obs (after g w ops).env.w) t)) := by
  obtain ⟨o, c, us, ho, rfl, hsh⟩ := vars_of_tree g w ops i t ht
  have hc := reach_cons hs g hg m w ops hok i _ o ht ho
  rw [step_call g _ i o ho,
    call0_stepOk hs g m c us o _ hsh (hok _ (List.mem_of_getElem? ht)) hc]

/-- The nested example in a history with calls, a copy and outside changes, for the retaining glue
and for the glue that copies everything. -/
example (w : Int) :
    (step Glue.retained (after Glue.retained w (nested ++ [.call 1, .poke (· + 7), .copy 1, .call 0])
      : State Int Int Nat Nat) (.call 1)).1 =
    .ret (.ok (some (.data (0 + (0 + (w + 7)) / 2 + 10 + (w + 7) / 2)))) := by
  have h := C04_fresh_partial soundNe Glue.retained (.inl ⟨rfl, rfl, rfl, rfl⟩) canon w
    (nested ++ [.call 1, .poke (· + 7), .copy 1, .call 0]) (by
      intro t ht
      have : runTrees [] (nested ++ [.call 1, .poke (· + 7), .copy 1, .call 0]) = [xT, yT, yT] := rfl
      rw [this] at ht
      simp at ht
      rcases ht with rfl | rfl
      · exact xT_ok _ (.inl rfl)
      · exact yT_ok _ (.inl rfl) (.inl rfl)) 1 yT rfl
  rw [h]
  have hw : (after Glue.retained w (nested ++ [.call 1, .poke (· + 7), .copy 1, .call 0])
      : State Int Int Nat Nat).env.w = w + 7 := by
    simp [after, run, step, nested]
    rfl
  simp [Meaning.result, yT, xT, Meaning.eager, canon, sum, halfArg, rd, half, RetTy.regularize, toInt,
    hw]

example : (step copying (after copying 5 nested : State Int Int Nat Nat) (.call 1)).1 =
    .ret (.ok (some (.data 14))) :=
  (C04_fresh_partial soundNe copying (.inr (.inl rfl)) canon 5 nested (by
    intro t ht
    rw [nested_trees] at ht
    simp at ht
    rcases ht with rfl | rfl
    · exact xT_ok _ (.inl rfl)
    · exact yT_ok _ (.inl rfl) (.inl rfl)) 1 yT rfl).trans (by
      have hw : (after copying 5 nested : State Int Int Nat Nat).env.w = 5 := rfl
      simp [Meaning.result, yT, xT, Meaning.eager, canon, sum, halfArg, rd, half, RetTy.regularize,
        toInt, hw])

/-- **C04 is false of the pinned code**: no call ever returns a value. -/
theorem C04_pinned_never_returns (w : W) (ops : List (Op D W E S)) (i : Nat) (t : Tree D W E S)
    (ht : (runTrees [] ops)[i]? = some t) (v : Option (Val D)) :
    (step Glue.asWritten (after Glue.asWritten w ops) (.call i)).1 ≠ .ret (.ok v) := by
  rcases C16_pinned_dangles w ops i t ht with h | ⟨e, h⟩ <;> simp [h]

example (v : Option V) : (step Glue.asWritten (after Glue.asWritten 5 nested : State Int Int Nat Nat)
    (.call 1)).1 ≠ .ret (.ok v) :=
  C04_pinned_never_returns 5 nested 1 yT rfl v

/-- **C04 is false for every half-repaired glue**: cache kept, results by value, but function and
dependencies still passed to the closure by value. After `x = lazy(halfArg.., rd)` was called in world
2, used as dependency, a return of the world to 2 gives the value of world 4. -/
theorem C04_half_fixed_stale (g : Glue) (ha : g.bindFrontCopies = false)
    (hb : g.coreParamsByValue = true) (hc : g.unwrapParamByValue = false)
    (hd : g.facadeParamByValue = false) (hr : g.resultByRef = false) :
    (step g (after g 2 [.mk halfArg [.function rd], .call 0, .mk sum [.var 0], .call 1,
        .poke (fun _ => 4), .call 1, .poke (fun _ => 2)] : State Int Int Nat Nat) (.call 1)).1 =
      .ret (.ok (some (.data 2))) ∧
    canon.result 2 (.lazy sum.toFnCode [.lazy halfArg.toFnCode [.function rd.toFnCode]] : T) =
      some (.data 1) := by
  obtain ⟨a, b, c, d, e1, e2, e3, e4⟩ := g
  simp only at ha hb hc hd hr
  subst ha hb hc hd hr
  refine ⟨?_, by
    simp [Meaning.result, Meaning.eager, canon, sum, halfArg, rd, RetTy.regularize, toInt]⟩
  cases e1 <;> cases e2 <;> cases e3 <;> rfl

/-- The glue in which only those parameters are left by value. -/
example : halfFixed.bindFrontCopies = false ∧ halfFixed.coreParamsByValue = true ∧
    halfFixed.unwrapParamByValue = false ∧ halfFixed.facadeParamByValue = false ∧
    halfFixed.resultByRef = false := by decide

/-- **C04 fails for a single tuple dependency** (any glue without dangling): the function counting
its arguments is given the elements instead of the tuple. -/
theorem C04_lone_tuple :
    (step Glue.retained (after Glue.retained 0 [.mk count [.value (.tup [.data 1, .data 2])]] :
      State Int Int Nat Nat) (.call 0)).1 = .ret (.ok (some (.data 2))) ∧
    canon.result 0 (.lazy count.toFnCode [.value (.tup [.data 1, .data 2])] : T) =
      some (.data 1) :=
  ⟨rfl, by simp [Meaning.result, Meaning.eager, canon, count, RetTy.regularize]⟩

end Pigro
