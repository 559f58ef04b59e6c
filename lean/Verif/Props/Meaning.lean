import Verif.Proofs.MeaningThrow
import Verif.Props.LazyA
import Verif.Props.LazyD
import Verif.Props.Refactor
import Verif.Props.LazyGlue
/-!
# C101: what a program returns depends on what its variables mean only

Not on how many lazy functions there are, what they depend on, in which order, how often, or where the code hands over copies.
-/
namespace Pigro.Mng
open Pigro.Demo (toInt rd half halfArg sum oddZero canon soundNe reflNe T V P F A)
variable {D W W' E S S' O : Type} [CxxData D]

/-- **C101.** Two programs declare variables of the same meaning at the same places; otherwise they may be as different as can be (functions, dependencies, own state, world). Then all operations
return the same. One may even be compiled with caches kept, and the other with caches dropped. -/
theorem C101_results_partial (hs : SoundNe D) (g g' : Glue) (hg : g.Retains ∨ g.Drops) (hg' : g'.Retains ∨ g'.Drops) (m : Meaning D W E S O) (m' : Meaning D W' E S' O) (w : W) (w' : W')
    (hw : m.obs w = m'.obs w') (ops : List (Op D W E S)) (ops' : List (Op D W' E S')) (h : Alongside m m' ops ops') (hok : ∀ t ∈ runTrees [] ops, TreeOk g m t)
    (hok' : ∀ t ∈ runTrees [] ops', TreeOk g' m' t) (hp : NoPolls ops) : (run g (State.init w) ops).1 = (run g' (State.init w') ops').1 :=
  (agree hs g g' hg hg' hw h hok hok' (.inl hp)).obs

/-- A single function for what the nested program computes by two, three dependencies and a constant. -/
def Demo.flat : F := ⟨⟨21, .val, fun s vs w => (.ok (.data ((vs.map toInt).foldl (· + ·) 0 / 2 * 2 + 10)), s + 1, w)⟩, 0⟩

/-- The nested program, and one without nesting. -/
def Demo.unnested : List P := [.mk halfArg [.function rd], .mk Demo.flat [.function rd]]

theorem Demo.unnested_ok (g : Glue) (hg : g.resultByRef = false) : ∀ t ∈ runTrees [] Demo.unnested, TreeOk g canon t := by
  have key : ∀ f : F, canon.FnOk f.toFnCode → TreeOk g canon (.lazy f.toFnCode [.function rd.toFnCode]) := by
    intro f hf
    refine ⟨.lazy _ _ hf ?_, .lazy _ _ ?_ ?_, .inl hg⟩
    · intro t ht; simp at ht; subst ht; exact .function _ Pigro.Demo.rd_ok
    · intro t ht o vs
      simp at ht; subst ht
      exact Pigro.Demo.not_tup _ (by intro o vs h; cases h) o vs
    · intro t ht; simp at ht; subst ht; exact .function _
  intro t ht
  have : t ∈ [Tree.lazy halfArg.toFnCode [.function rd.toFnCode], .lazy Demo.flat.toFnCode [.function rd.toFnCode]] := ht
  simp only [List.mem_cons, List.not_mem_nil, or_false] at this
  rcases this with rfl | rfl
  · exact key _ Pigro.Demo.halfArg_ok
  · exact key _ (by intro s a w; exact ⟨rfl, rfl⟩)

theorem Demo.nested_alongside : Alongside canon canon Pigro.Demo.nested Demo.unnested := by
  have h1 : Alongside canon canon ([] ++ [.mk halfArg [.function rd]] : List P) ([] ++ [.mk halfArg [.function rd]]) := .mk _ _ _ _ .nil ⟨Iff.rfl, fun _ => rfl⟩
  refine .mk _ _ _ _ h1 ⟨by decide, fun o => ?_⟩
  simp [Meaning.eager, canon, sum, halfArg, rd, half, Demo.flat, RetTy.regularize, toInt]
  omega

/-- Nested with caches, or flat and without caches: in any world and however they are used, their answers are the same. -/
example (w : Int) (ops : List P) (hm : ∀ f ds, Op.mk f ds ∉ ops) (hp : NoPolls ops) :
    (run .retained (State.init w) (Pigro.Demo.nested ++ ops)).1 = (run Pigro.Demo.copying (State.init w) (Demo.unnested ++ ops)).1 := by
  have ht : ∀ (l : List P) (ts : List T), (∀ f ds, Op.mk f ds ∉ l) → ∀ t ∈ runTrees ts l, t ∈ ts := by
    intro l
    induction l with
    | nil => intro ts _ t h; exact h
    | cons op l ih =>
      intro ts hl t h
      have h' := ih (stepTrees ts op) (fun f ds hm => hl f ds (by simp [hm])) t h
      cases op with
      | mk f ds => exact absurd (by simp) (hl f ds)
      | copy i =>
        simp only [stepTrees] at h'
        rcases hx : ts[i]? with _ | t' <;> rw [hx] at h'
        · exact h'
        · simp only [List.mem_append, List.mem_singleton] at h'
          rcases h' with h' | rfl
          · exact h'
          · exact List.mem_of_getElem? hx
      | _ => exact h'
  have hsplit : ∀ a : List P, runTrees [] (a ++ ops) = runTrees (runTrees [] a) ops := by intro a; simp [runTrees]
  refine C101_results_partial soundNe _ _ (.inl ⟨rfl, rfl, rfl, rfl⟩) (.inr (.inl rfl)) canon canon w w rfl _ _ (Demo.nested_alongside.more ?_) ?_ ?_ ?_
  · intro h _ a b hab
    simp only [canon, id] at hab ⊢
    rw [hab]
  · intro t h
    rw [hsplit] at h
    exact Pigro.Demo.nested_ok t (ht ops _ hm t h)
  · intro t h
    rw [hsplit] at h
    exact Demo.unnested_ok _ rfl t (ht ops _ hm t h)
  · intro i hi
    simp only [List.mem_append] at hi
    rcases hi with hi | hi
    · simp [Pigro.Demo.nested] at hi
    · exact hp i hi

/-- ... for instance. -/
example : let ops : List P := [.call 1, .poke (· + 2), .copy 1, .call 2, .call 0, .poke (· - 2), .call 1, .call 2]
    let one := run .retained (State.init 5) (Pigro.Demo.nested ++ ops)
    let two := run Pigro.Demo.copying (State.init 5) (Demo.unnested ++ ops)
    Rfc.Demo.seen one.1 = Rfc.Demo.seen two.1 ∧ Rfc.Demo.seen one.1 = [some 14, some 16, some 3, some 14, some 14] := by decide +kernel

/-- **C101**, with polls: the reports of change are the same, too, if both keep caches, or both drop them (and values are equal to themselves). -/
theorem C101_flags_partial (hs : SoundNe D) (hr : ReflNe D) (g g' : Glue) (hg : g.Retains ∧ g'.Retains ∨ g.Drops ∧ g'.Drops) (m : Meaning D W E S O) (m' : Meaning D W' E S' O) (w : W) (w' : W')
    (hw : m.obs w = m'.obs w') (ops : List (Op D W E S)) (ops' : List (Op D W' E S')) (h : Alongside m m' ops ops') (hok : ∀ t ∈ runTrees [] ops, TreeOk g m t)
    (hok' : ∀ t ∈ runTrees [] ops', TreeOk g' m' t) : (run g (State.init w) ops).1 = (run g' (State.init w') ops').1 :=
  (agree hs g g' (hg.imp (·.1) (·.1)) (hg.imp (·.2) (·.2)) hw h hok hok' (.inr ⟨hr, hg⟩)).obs

/-- The two programs, with caches, and polled. -/
example (w : Int) (h : Int → Int) :
    (run .retained (State.init w) (Pigro.Demo.nested ++ [.poll 1, .poke h, .poll 1, .call 1, .poll 1])).1 =
      (run .retained (State.init w) (Demo.unnested ++ [.poll 1, .poke h, .poll 1, .call 1, .poll 1] : List P)).1 := by
  refine C101_flags_partial soundNe reflNe _ _ (.inl ⟨⟨rfl, rfl, rfl, rfl⟩, ⟨rfl, rfl, rfl, rfl⟩⟩) canon canon w w rfl _ _ (Demo.nested_alongside.more ?_) Pigro.Demo.nested_ok (Demo.unnested_ok _ rfl)
  intro h _ a b hab
  simp only [canon, id] at hab ⊢
  rw [hab]

/-- ... for instance: a change of the world that is none of the result is not reported by either. -/
example : let ops : List P := [.poll 1, .poke (· + 1), .poll 1, .poke (· + 1), .poll 1]
    let one := run .retained (State.init 4) (Pigro.Demo.nested ++ ops)
    let two := run .retained (State.init 4) (Demo.unnested ++ ops)
    Rfc.Demo.seen one.1 = Rfc.Demo.seen two.1 ∧ Rfc.Demo.seen one.1 = [some 1000014, some 14, some 1000016] := by decide +kernel

/-- **C101**, rearranging dependencies: they may be declared in another order, several times, or (being of no use to the function) not at all, in any program of functions that depend on their
arguments only. -/
theorem C101_rearranged_partial (hs : SoundNe D) (hr : ReflNe D) (g : Glue) (hg : g.Retains ∨ g.Drops) (m : Meaning D W E S O) (w : W) (pre ops : List (Op D W E S)) (f f' : UFn D W E S)
    (ds : List (ArgRef D W E S)) (ks : List Nat) (hf : f.ret = f'.ret) (hm : ∀ vs, m.fn f'.toFnCode vs = m.fn f.toFnCode (pick ks vs))
    (hd : (argTrees (runTrees [] pre) ds).isSome) (hp : PokesOk m (pre ++ ops))
    (hok : ∀ t ∈ runTrees [] (pre ++ [.mk f (pick ks ds)] ++ ops), TreeOk g m t) (hok' : ∀ t ∈ runTrees [] (pre ++ [.mk f' ds] ++ ops), TreeOk g m t) :
    (run g (State.init w) (pre ++ [.mk f (pick ks ds)] ++ ops)).1 = (run g (State.init w) (pre ++ [.mk f' ds] ++ ops)).1 := by
  refine C101_flags_partial hs hr g g (hg.imp (fun h => ⟨h, h⟩) (fun h => ⟨h, h⟩)) m m w w rfl _ _ ?_ hok hok'
  have h0 : Alongside m m pre pre := by
    have := Alongside.more (m := m) .nil (ops := pre) (fun h hm => hp h (by simp [hm]))
    simpa using this
  refine Alongside.more (.mk f f' (pick ks ds) ds h0 ?_) (fun h hm => hp h (by simp [hm]))
  rcases hx : argTrees (runTrees [] pre) ds with _ | us
  · rw [hx] at hd; cases hd
  · rw [argTrees_pick hx ks]
    refine ⟨by rw [hf], fun o => ?_⟩
    simp only [Meaning.eager, hm, pick_map, hf]

/-- The arguments as digits. -/
def Demo.digits : F := ⟨⟨22, .val, fun s vs w => (.ok (.data (vs.foldl (fun a v => 10 * a + toInt v) 0)), s + 1, w)⟩, 0⟩

/-- Its first argument, its third, and its first again. -/
def Demo.rearranged : F := ⟨⟨23, .val, fun s vs w => (.ok (.data ((pick [0, 2, 0] vs).foldl (fun a v => 10 * a + toInt v) 0)), s + 1, w)⟩, 0⟩

/-- `lazy(digits, rd, 3, rd)`, or `lazy(rearranged, rd, half, 3)`, in any world. -/
example (w : Int) (h : Int → Int) :
    (run .retained (State.init w) ([] ++ [.mk Demo.digits (pick [0, 2, 0] [.function rd, .function half, .value (.data 3)])] ++ [.poll 0, .poke h, .poll 0, .call 0])).1 =
      (run .retained (State.init w) ([] ++ [.mk Demo.rearranged [.function rd, .function half, .value (.data 3)]] ++ [.poll 0, .poke h, .poll 0, .call 0] : List P)).1 := by
  refine C101_rearranged_partial soundNe reflNe _ (.inl ⟨rfl, rfl, rfl, rfl⟩) canon w [] _ _ _ _ _ rfl (fun vs => rfl) rfl ?_ ?_ ?_
  · intro h _ a b hab
    simp only [canon, id] at hab ⊢
    rw [hab]
  · intro t ht
    have : t ∈ [Tree.lazy Demo.digits.toFnCode [.function rd.toFnCode, .value (.data 3), .function rd.toFnCode]] := ht
    simp only [List.mem_singleton] at this
    subst this
    refine ⟨.lazy _ _ (by intro s a w; exact ⟨rfl, rfl⟩) ?_, .lazy _ _ ?_ ?_, .inl rfl⟩
    · intro t ht; simp at ht; rcases ht with rfl | rfl | rfl <;> first | exact .function _ Pigro.Demo.rd_ok | exact .value _
    · intro t ht; simp at ht
    · intro t ht; simp at ht; rcases ht with rfl | rfl | rfl <;> first | exact .function _ | exact .value _
  · intro t ht
    have : t ∈ [Tree.lazy Demo.rearranged.toFnCode [.function rd.toFnCode, .function half.toFnCode, .value (.data 3)]] := ht
    simp only [List.mem_singleton] at this
    subst this
    refine ⟨.lazy _ _ (by intro s a w; exact ⟨rfl, rfl⟩) ?_, .lazy _ _ ?_ ?_, .inl rfl⟩
    · intro t ht; simp at ht; rcases ht with rfl | rfl | rfl <;> first | exact .function _ Pigro.Demo.rd_ok | exact .function _ Pigro.Demo.half_ok | exact .value _
    · intro t ht; simp at ht
    · intro t ht; simp at ht; rcases ht with rfl | rfl | rfl <;> first | exact .function _ | exact .value _

/-! ### Functions that throw -/

/-- **C101**, with functions that throw: where caches are dropped, and where they are kept as long as no variable is called after it has thrown. What is the same includes the exceptions. -/
theorem C101_throwing_partial (hs : SoundNe D) (g g' : Glue) (m : MeaningE D W E S O) (m' : MeaningE D W' E S' O) (w : W) (w' : W') (hw : m.obs w = m'.obs w') (ops : List (Op D W E S))
    (ops' : List (Op D W' E S')) (h : AlongsideE m m' ops ops') (hok : ∀ t ∈ runTrees [] ops, TreeOkE g m t) (hok' : ∀ t ∈ runTrees [] ops', TreeOkE g' m' t)
    (hu : Untroubled g w ops) (hu' : Untroubled g' w' ops') : (run g (State.init w) ops).1 = (run g' (State.init w') ops').1 :=
  (agreeE hs g g' hw h hok hok' hu hu').obs

/-- `lazy(sum, half, oddZero)` and `lazy(sum, oddZero, half)` mean the same: one of the functions never throws. -/
theorem Demo.either_order (l : List (Op Int Int Nat Nat)) (h : AlongsideE Pigro.Demo.canonE Pigro.Demo.canonE l l) :
    AlongsideE Pigro.Demo.canonE Pigro.Demo.canonE (l ++ [.mk sum [.function half, .function oddZero]]) (l ++ [.mk sum [.function oddZero, .function half]]) := by
  refine .mk _ _ _ _ h ⟨Iff.rfl, fun o => ?_⟩
  simp only [MeaningE.eager, MeaningE.eagerL, Pigro.Demo.canonE, half, oddZero, sum, RetTy.regularize]
  by_cases ho : o % 2 = 1
  · simp [ho]
  · simp [ho, toInt]

theorem Demo.either_ok (g : Glue) (hg : g.resultByRef = false) (a b : F) (h : [a, b] = [half, oddZero] ∨ [a, b] = [oddZero, half]) :
    TreeOkE g Pigro.Demo.canonE (.lazy sum.toFnCode [.function a.toFnCode, .function b.toFnCode]) := by
  have hf : ∀ c : F, c = half ∨ c = oddZero → Pigro.Demo.canonE.Ok (.function c.toFnCode) := by
    rintro c (rfl | rfl) <;> exact .function _ fun s w => ⟨rfl, rfl⟩
  refine ⟨.lazy _ _ (fun s a w => ⟨rfl, rfl⟩) ?_, .lazy _ _ ?_ ?_, .inl hg⟩
  · intro t ht
    simp only [List.cons.injEq, and_true] at h
    simp only [List.mem_cons, List.not_mem_nil, or_false] at ht
    rcases ht with rfl | rfl <;> apply hf <;> rcases h with h | h <;> simp [h.1, h.2]
  · intro t ht; simp at ht
  · intro t ht
    simp only [List.mem_cons, List.not_mem_nil, or_false] at ht
    rcases ht with rfl | rfl <;> exact .function _

/-- Called twice where caches are dropped, in whatever worlds. -/
example (w : Int) (h : Int → Int) : (run Pigro.Demo.copying (State.init w) ([] ++ [.mk sum [.function half, .function oddZero]] ++ [.call 0] ++ [.poke h] ++ [.call 0])).1 =
    (run Pigro.Demo.copying (State.init w) ([] ++ [.mk sum [.function oddZero, .function half]] ++ [.call 0] ++ [.poke h] ++ [.call 0] : List P)).1 := by
  refine C101_throwing_partial soundNe _ _ Pigro.Demo.canonE Pigro.Demo.canonE w w rfl _ _ (.call 0 (.poke h h (.call 0 (Demo.either_order [] .nil)) ?_)) ?_ ?_ (.inl (.inl rfl)) (.inl (.inl rfl))
  · intro a b hab
    simp only [Pigro.Demo.canonE, id] at hab ⊢
    rw [hab]
  · intro t ht
    have : t ∈ [Tree.lazy sum.toFnCode [.function half.toFnCode, .function oddZero.toFnCode]] := ht
    rw [List.mem_singleton.1 this]
    exact Demo.either_ok _ rfl _ _ (.inl rfl)
  · intro t ht
    have : t ∈ [Tree.lazy sum.toFnCode [.function oddZero.toFnCode, .function half.toFnCode]] := ht
    rw [List.mem_singleton.1 this]
    exact Demo.either_ok _ rfl _ _ (.inr rfl)

/-- ... for instance in worlds 2 and 5, with an exception. -/
example : let l (a b : F) : List P := [.mk sum [.function a, .function b], .call 0, .poke (fun _ => 5), .call 0]
    Rfc.Demo.seen (run Pigro.Demo.copying (State.init 2) (l half oddZero)).1 = [some 1, some (-9)] ∧ Rfc.Demo.seen (run .retained (State.init 2) (l oddZero half)).1 = [some 1, some (-9)] := by
  decide +kernel

/-- **C101 is false of variables that have thrown**, where caches are kept: the order of the dependencies, of no importance to the meaning, can be seen afterwards. In world 5 `half` changes and
`oddZero` throws; back in a world with the same `half`, the change is forgotten if `half` comes first. -/
theorem C101_order_after_throw (g : Glue) (hg : g.Retains) (hr : g.resultByRef = false) : ∃ ops ops' : List P, AlongsideE Pigro.Demo.canonE Pigro.Demo.canonE ops ops' ∧
    (∀ t ∈ runTrees [] ops, TreeOkE g Pigro.Demo.canonE t) ∧ (∀ t ∈ runTrees [] ops', TreeOkE g Pigro.Demo.canonE t) ∧
      Rfc.Demo.seen (run g (State.init 2) ops).1 = [some 1, some (-9), some 1] ∧ Rfc.Demo.seen (run g (State.init 2) ops').1 = [some 1, some (-9), some 2] := by
  have hp : ∀ k : Int, ∀ a b : Int, Pigro.Demo.canonE.obs a = Pigro.Demo.canonE.obs b → Pigro.Demo.canonE.obs ((fun _ => k) a) = Pigro.Demo.canonE.obs ((fun _ => k) b) := fun _ _ _ _ => rfl
  refine ⟨[] ++ [.mk sum [.function half, .function oddZero]] ++ [.call 0] ++ [.poke (fun _ => 5)] ++ [.call 0] ++ [.poke (fun _ => 4)] ++ [.call 0],
    [] ++ [.mk sum [.function oddZero, .function half]] ++ [.call 0] ++ [.poke (fun _ => 5)] ++ [.call 0] ++ [.poke (fun _ => 4)] ++ [.call 0],
    .call 0 (.poke _ _ (.call 0 (.poke _ _ (.call 0 (Demo.either_order [] .nil)) (hp 5))) (hp 4)), ?_, ?_, ?_, ?_⟩
  · intro t ht
    have : t ∈ [Tree.lazy sum.toFnCode [.function half.toFnCode, .function oddZero.toFnCode]] := ht
    rw [List.mem_singleton.1 this]
    exact Demo.either_ok _ hr _ _ (.inl rfl)
  · intro t ht
    have : t ∈ [Tree.lazy sum.toFnCode [.function oddZero.toFnCode, .function half.toFnCode]] := ht
    rw [List.mem_singleton.1 this]
    exact Demo.either_ok _ hr _ _ (.inr rfl)
  all_goals
    obtain ⟨a, b, c, d, e1, e2, e3, e4⟩ := g
    obtain ⟨ha, hb, hc, hd⟩ := hg
    simp only at ha hb hc hd hr
    subst ha hb hc hd hr
    revert e1 e2 e3
    decide +kernel

example : Glue.retained.Retains ∧ Glue.retained.resultByRef = false := ⟨⟨rfl, rfl, rfl, rfl⟩, rfl⟩

/-! ### Not where the code keeps some of its state only -/

/-- **C101 is false where caches are kept but the dependencies are copied**, half-way between the pinned code and its repair: `sum` of one argument is that argument, but `lazy(sum, x)` with
`x = lazy(halfArg, rd)`, called before, returns something else than `lazy(halfArg, rd)`. -/
theorem C101_half_repaired (g : Glue) (ha : g.bindFrontCopies = false) (hb : g.coreParamsByValue = true) (hc : g.unwrapParamByValue = false) (hd : g.facadeParamByValue = false)
    (hr : g.resultByRef = false) : ∃ ops ops' : List P, Alongside canon canon ops ops' ∧ (∀ t ∈ runTrees [] ops, canon.Ok t) ∧ (∀ t ∈ runTrees [] ops', canon.Ok t) ∧
      Rfc.Demo.seen (run g (State.init 2) ops).1 = [some 1, some 1, some 2, some 2] ∧ Rfc.Demo.seen (run g (State.init 2) ops').1 = [some 1, some 1, some 2, some 1] := by
  let rest : List P := [.call 1, .poke (fun _ => 4), .call 1, .poke (fun _ => 2), .call 1]
  have hp : ∀ l, PokesOk canon l := by
    intro l h _ a b hab
    simp only [canon, id] at hab ⊢
    rw [hab]
  have hx : canon.Ok (.lazy halfArg.toFnCode [.function rd.toFnCode] : T) := .lazy _ _ Pigro.Demo.halfArg_ok (by intro t ht; simp at ht; subst ht; exact .function _ Pigro.Demo.rd_ok)
  refine ⟨[.mk halfArg [.function rd], .call 0] ++ [.mk sum [.var 0]] ++ rest, [.mk halfArg [.function rd], .call 0] ++ [.mk halfArg [.function rd]] ++ rest, ?_, ?_, ?_, ?_, ?_⟩
  · have h0 : Alongside canon canon ([.mk halfArg [.function rd], .call 0] : List P) [.mk halfArg [.function rd], .call 0] := by
      have := Alongside.more (m := canon) .nil (ops := [.mk halfArg [.function rd], .call 0]) (hp _)
      simpa using this
    have h1 : SameDecl canon canon sum.toFnCode halfArg.toFnCode (argTrees (runTrees [] [.mk halfArg [.function rd], .call 0]) [.var 0])
        (argTrees (runTrees [] [.mk halfArg [.function rd], .call 0]) [.function rd]) := by
      refine ⟨Iff.rfl, fun o => ?_⟩
      simp [Meaning.eager, canon, sum, halfArg, rd, RetTy.regularize, toInt]
    exact Alongside.more (.mk _ _ _ _ h0 h1) (hp _)
  · intro t ht
    have : t ∈ [Tree.lazy halfArg.toFnCode [.function rd.toFnCode], .lazy sum.toFnCode [.lazy halfArg.toFnCode [.function rd.toFnCode]]] := ht
    simp only [List.mem_cons, List.not_mem_nil, or_false] at this
    rcases this with rfl | rfl
    · exact hx
    · exact .lazy _ _ Pigro.Demo.sum_ok (by intro t ht; simp at ht; subst ht; exact hx)
  · intro t ht
    have : t ∈ [Tree.lazy halfArg.toFnCode [.function rd.toFnCode], .lazy halfArg.toFnCode [.function rd.toFnCode]] := ht
    simp only [List.mem_cons, List.not_mem_nil, or_false, or_self] at this
    rw [this]; exact hx
  · obtain ⟨a, b, c, d, e1, e2, e3, e4⟩ := g
    simp only at ha hb hc hd hr
    subst ha hb hc hd hr
    revert e1 e2 e3
    decide +kernel
  · obtain ⟨a, b, c, d, e1, e2, e3, e4⟩ := g
    simp only at ha hb hc hd hr
    subst ha hb hc hd hr
    revert e1 e2 e3
    decide +kernel

example : Pigro.Demo.halfFixed.bindFrontCopies = false ∧ Pigro.Demo.halfFixed.coreParamsByValue = true ∧ Pigro.Demo.halfFixed.resultByRef = false := by decide

end Pigro.Mng

namespace Pigro.LM
variable {D W W' E S S' O : Type} [CxxData D]

/-- C101 at memory level, for results that are values. The two programs may even differ in which callables are of empty type, and in what moving leaves behind. -/
theorem C101_in_memory_partial (hs : SoundNe D) (Θ : Empties D W E S) (hΘ : Stateless Θ) (moved : MV D W E S → MV D W E S) (Θ' : Empties D W' E S') (hΘ' : Stateless Θ')
    (moved' : MV D W' E S' → MV D W' E S') (g g' : Glue) (hg : g.Retains ∨ g.Drops) (hg' : g'.Retains ∨ g'.Drops) (hv : g.resultByRef = false) (hv' : g'.resultByRef = false)
    (m : Meaning D W E S O) (m' : Meaning D W' E S' O) (w : W) (w' : W') (hw : m.obs w = m'.obs w') (ops : List (Op D W E S)) (ops' : List (Op D W' E S'))
    (h : Mng.Alongside m m' ops ops') (hok : ∀ t ∈ runTrees [] ops, TreeOk g m t) (hok' : ∀ t ∈ runTrees [] ops', TreeOk g' m' t) (hp : Mng.NoPolls ops) :
    (runMG (lang Θ moved) g (MState.init w) ops).1 = (runMG (lang Θ' moved') g' (MState.init w') ops').1 := by
  rw [(C80_composed Θ hΘ moved g (.ofValue hv) w ops).1, (C80_composed Θ' hΘ' moved' g' (.ofValue hv') w' ops').1,
    Mng.C101_results_partial hs g g' hg hg' m m' w w' hw ops ops' h hok hok' hp]

/-- The nested program with caches, and the flat one without. -/
example (w : Int) : (runMG (lang empties (fun _ => .unit)) .retained (MState.init w) (Demo.nested ++ [.call 1, .poke (· + 3), .call 1] : List (Op Int Int Nat Nat))).1 =
    (runMG (lang empties (fun _ => .unit)) Demo.copying (MState.init w) (Mng.Demo.unnested ++ [.call 1, .poke (· + 3), .call 1])).1 := by
  refine C101_in_memory_partial Demo.soundNe _ empties_stateless _ _ empties_stateless _ _ _ (.inl ⟨rfl, rfl, rfl, rfl⟩) (.inr (.inl rfl)) rfl rfl Demo.canon Demo.canon w w rfl _ _
    (Mng.Demo.nested_alongside.more ?_) Demo.nested_ok (Mng.Demo.unnested_ok _ rfl) ?_
  · intro h _ a b hab
    simp only [Demo.canon, id] at hab ⊢
    rw [hab]
  · intro i hi
    simp [Demo.nested] at hi

end Pigro.LM
