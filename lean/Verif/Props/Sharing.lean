import Verif.Proofs.Sharing
import Verif.Props.Demo
/-!
# C77: lazy functions that share a lazy function
-/
namespace Pigro
open Demo
variable {D W E S O : Type} [CxxData D]

/-- **C77, by call** (for code that keeps the state of the called object, or drops it altogether, without dangling results): a program makes lazy functions
some of whose dependencies are `[&] { return x(); }` for lazy functions `x` that exist already and that others use, too. Whatever the history (including
the others' calls of the shared ones), every call returns what eager evaluation of the whole now gives, the shared ones evaluated in place.

Missing for the full property: the pinned code, which dangles (`C04_pinned_never_returns`); functions that throw or are impure; a lone tuple. -/
theorem C77_by_call_partial (hs : SoundNe D) (g : Glue) (hg : g.Retains ∨ g.Drops) (m : Meaning D W E S O) (w : W) (prog : List (Op D W E S))
    (hok : ∀ t ∈ runTrees [] prog, TreeOk g m t) (st : S) (ops : List (ShOp D W E S)) (hfit : ∀ op ∈ ops, op.Fits (runTrees [] prog))
    (hok' : ∀ t ∈ shRunTrees (runTrees [] prog) [] ops, TreeOk g m t) (j : Nat) (t : Tree D W E S) (ht : (shRunTrees (runTrees [] prog) [] ops)[j]? = some t) :
    let s := after g (Shared.start g (after g w prog)) (ops.map (ShOp.op g (after g w prog) st))
    (step g s (.call j)).1 = .ret (.ok (m.result (m.obs s.env.w.1.env.w) t)) := by
  intro s
  have hj : InPlaceL g (after g w prog) (runTrees [] prog) (runTrees [] (ops.map (ShOp.op g (after g w prog) st))) (shRunTrees (runTrees [] prog) [] ops) :=
    run_joint st ops hfit ⟨rfl, by simp⟩
  have hall : ∀ t' ∈ runTrees [] (ops.map (ShOp.op g (after g w prog) st)), TreeOk g (m.beside g (after g w prog)) t' := by
    intro t' ht'
    obtain ⟨k, hk⟩ := List.getElem?_of_mem ht'
    rcases hj.get k with ⟨h1, -⟩ | ⟨a, b, h1, h2, h3⟩
    · rw [hk] at h1; cases h1
    · rw [hk] at h1; cases h1
      exact h3.ok hs hg m hok (hok' _ (List.mem_of_getElem? h2))
  rcases hj.get j with ⟨-, h2⟩ | ⟨a, b, h1, h2, h3⟩
  · rw [ht] at h2; cases h2
  · rw [ht] at h2; cases h2
    rw [C04_fresh_partial hs g hg (m.beside g (after g w prog)) (Shared.start g (after g w prog)) _ hall j a h1,
      h3.result hs hg m hok (hok' _ (List.mem_of_getElem? ht)).1]

/-- Shared: `x = lazy(halfArg, rd)`, `y = lazy(sum, x, 10, half)`. A lazy function of a call of `x`, a call of `y`, and a value; one of that one and a call of
`x`; others call `x` and change the world in between. -/
def sharing : List (ShOp Int Int Nat Nat) :=
  [.mk sum [.shared 0, .shared 1, .value (.data 100)], .mk sum [.var 0, .shared 0], .call 1, .elsewhere (.call 0) trivial, .elsewhere (.poke (· + 4)) trivial,
    .elsewhere (.call 0) trivial, .call 0, .elsewhere (.poll 1) trivial]

theorem sharing_trees : shRunTrees (runTrees [] nested) [] sharing =
    [.lazy sum.toFnCode [xT, yT, .value (.data 100)], .lazy sum.toFnCode [.lazy sum.toFnCode [xT, yT, .value (.data 100)], xT]] := rfl

theorem sharing_fits : ∀ op ∈ sharing, op.Fits (runTrees [] nested) := by
  intro op hop
  simp only [sharing, List.mem_cons, List.not_mem_nil, or_false] at hop
  have h0 : (ShArg.shared 0 : ShArg Int Int Nat Nat).Fits (runTrees [] nested) := ⟨_, _, rfl, rfl⟩
  have h1 : (ShArg.shared 1 : ShArg Int Int Nat Nat).Fits (runTrees [] nested) := ⟨_, _, rfl, rfl⟩
  rcases hop with rfl | rfl | rfl | rfl | rfl | rfl | rfl | rfl <;> simp [ShOp.Fits, h0, h1]
  · simp [ShArg.Fits]
  · simp [ShArg.Fits]

theorem sharing_ok : ∀ t ∈ shRunTrees (runTrees [] nested) [] sharing, TreeOk Glue.retained canon t := by
  have hx := xT_ok Glue.retained (.inl rfl)
  have hy := yT_ok Glue.retained (.inl rfl) (.inl rfl)
  have hz : TreeOk Glue.retained canon (.lazy sum.toFnCode [xT, yT, .value (.data 100)]) := by
    refine ⟨.lazy _ _ sum_ok ?_, .lazy _ _ (by simp) ?_, .inl rfl⟩ <;> intro t ht <;> simp at ht <;> rcases ht with rfl | rfl | rfl
    · exact hx.1
    · exact hy.1
    · exact .value _
    · exact hx.2.1
    · exact hy.2.1
    · exact .value _
  intro t ht
  rw [sharing_trees] at ht
  simp only [List.mem_cons, List.not_mem_nil, or_false] at ht
  rcases ht with rfl | rfl
  · exact hz
  · refine ⟨.lazy _ _ sum_ok ?_, .lazy _ _ (by simp) ?_, .inl rfl⟩ <;> intro t ht <;> simp at ht <;> rcases ht with rfl | rfl
    · exact hz.1
    · exact hx.1
    · exact hz.2.1
    · exact hx.2.1

/-- World 6, then 10: `x` is 5, `y` is 5 + 10 + 5; the second function returns 5 + 20 + 100 + 5, although only others have called `x` and `y` since. -/
example : (step Glue.retained (after Glue.retained (Shared.start Glue.retained (after Glue.retained 6 nested)) (sharing.map (ShOp.op _ _ 0))) (.call 1)).1 =
    .ret (.ok (some (.data 130))) := by
  have hw : (after Glue.retained (Shared.start Glue.retained (after Glue.retained (6 : Int) nested)) (sharing.map (ShOp.op _ _ 0))).env.w.1.env.w = 10 := by decide +kernel
  have h := C77_by_call_partial soundNe Glue.retained (.inl ⟨rfl, rfl, rfl, rfl⟩) canon 6 nested nested_ok 0 sharing sharing_fits sharing_ok 1 _ rfl
  simp only [hw] at h
  rw [h]
  simp [Meaning.result, Meaning.eager, canon, sum, halfArg, rd, half, toInt, RetTy.regularize]

/-- **C77, once**: after a call of a shared lazy function by one user, calls by the same or others run no function until something functions observe changes. -/
theorem C77_once_partial (hs : SoundNe D) (hr : ReflNe D) (g : Glue) (hg : g.Retains) (m : Meaning D W E S O) (w : W) (prog : List (Op D W E S))
    (hok : ∀ t ∈ runTrees [] prog, TreeOk g m t) (i : Nat) (t : Tree D W E S) (ht : (runTrees [] prog)[i]? = some t) (s : Shared g (after g w prog))
    (l : List (Use D W E S)) (hq : ∀ op ∈ l, op.1.quiet m) :
    let s' := (s.use (.call i) trivial).2.elsewhere l
    fnCalls (s'.use (.call i) trivial).2.1.env.log = fnCalls s'.1.env.log ∧ (s'.use (.call i) trivial).1 = (s.use (.call i) trivial).1 := by
  have key : ∀ (l : List (Use D W E S)) (s1 : Shared g (after g w prog)), (∀ op ∈ l, op.1.quiet m) →
      (∃ o, s1.1.vars[i]? = some o ∧ LastAll m (m.obs s1.1.env.w) t o) →
      (∃ o, (s1.elsewhere l).1.vars[i]? = some o ∧ LastAll m (m.obs (s1.elsewhere l).1.env.w) t o) ∧ m.obs (s1.elsewhere l).1.env.w = m.obs s1.1.env.w := by
    intro l
    induction l with
    | nil => exact fun s1 _ h => ⟨h, rfl⟩
    | cons op l ih =>
      rintro s1 hq ⟨o, ho, hl⟩
      obtain ⟨o', h1, h2, h3⟩ := quiet_last hs hg m hok ht s1 op.1 op.2 (hq op (by simp)) ho hl
      have := ih (s1.use op.1 op.2).2 (fun a ha => hq a (by simp [ha])) ⟨o', h1, h2⟩
      exact ⟨this.1, this.2.trans h3⟩
  have h0 : ∃ o, (s.use (.call i) trivial).2.1.vars[i]? = some o ∧ LastAll m (m.obs (s.use (.call i) trivial).2.1.env.w) t o := by
    rw [s.call_poll ht]
    obtain ⟨r, o, o', h1, -, h3, -, -, h6, h7, -⟩ := s.poll hs (.inl hg) m hok ht
    have hlt := (List.getElem?_eq_some_iff.1 h1).1
    exact ⟨o', by rw [h3]; simp [hlt], by rw [h6]; exact h7 hg⟩
  obtain ⟨⟨o, ho, hl⟩, hobs⟩ := key l _ hq h0
  intro s'
  have hc := s.call hs (.inl hg) m hok ht
  have hc' := s'.call hs (.inl hg) m hok ht
  refine ⟨?_, by rw [hc'.1, hc.1, show m.obs s'.1.env.w = _ from hobs, hc.2]⟩
  obtain ⟨o2, c, us, ho2, rfl, hsh, hcons⟩ := s'.get hs (.inl hg) m hok ht
  rw [show s'.1.vars[i]? = some o from ho] at ho2
  cases ho2
  have hk := hok _ (List.mem_of_getElem? ht)
  obtain ⟨r, o', env', he, -, -, -, -, -, h5⟩ := evalN_stepOk hs g m _ o s'.1.env hsh hk.1 hk.2.1 hk.2.2 hcons
  have hz : m.recalc (m.obs s'.1.env.w) (m.obs s'.1.env.w) (.lazy c us) = [] := recalc_self hr m _ _
  have h2 := (h5 hr).2.1
  rw [expect_lastAll m _ _ _ _ (show LastAll m (m.obs s'.1.env.w) (.lazy c us) o from hl), hz, List.append_nil] at h2
  show fnCalls (step g s'.1 (.call i)).2.env.log = _
  rw [step_call g s'.1 i o ho, call0_obj g c us o s'.1.env hsh, he]
  exact h2

/-- `y` is called, then `x` and `y` by whomever, the world set to what it is: no function runs in the next call of `y`. -/
example (s : Shared Glue.retained (after Glue.retained (6 : Int) nested)) :
    let s' := (s.use (.call 1) trivial).2.elsewhere [⟨.call 0, trivial⟩, ⟨.poke id, trivial⟩, ⟨.poll 1, trivial⟩, ⟨.call 0, trivial⟩]
    fnCalls (s'.use (.call 1) trivial).2.1.env.log = fnCalls s'.1.env.log :=
  (C77_once_partial soundNe reflNe Glue.retained ⟨rfl, rfl, rfl, rfl⟩ canon 6 nested nested_ok 1 _ rfl s _ (by
    intro op hop
    simp only [List.mem_cons, List.not_mem_nil, or_false] at hop
    rcases hop with rfl | rfl | rfl | rfl <;> simp [Op.quiet])).1

/-- The state of a program with one lazy function of `std::ref(x_i)...`. -/
theorem ref_state (g : Glue) (hg : g.Retains) (hv : g.resultByRef = false) (hr : g.regParamByValue = false) {s0 : State D W E S} (f : UFn D W E S) (st : S) (is : List Nat)
    (hlone : NoTupleAlone ((is.map (byRef (g := g) (s0 := s0) st)).map LFn.toLCode)) (l : List (Option (Use D W E S))) :
    let y := xafter g (Shared.start g s0) (.mk f.beside (is.map fun i => .user (byRef st i)) :: l.map (refOp g s0))
    let x := (⟨f.beside, is.map (byRef st), none⟩ : Watch D (Shared g s0) E S).run (Shared.start g s0) (l.map asElse)
    y.env.w = x.2.2 ∧ (xstep g y (.call 0)).1 = x.2.1.seen (x.2.1.call x.2.2).1 ∧ (xstep g y (.call 0)).2.env.w = (x.2.1.call x.2.2).2.2 := by
  have hens : ∀ ls : List (LFn D (Shared g s0) E S), ensureX [] (ls.map XArg.user) = some (ls.map XObj.user) := by
    intro ls
    induction ls with
    | nil => rfl
    | cons l ls ih => simp [ensureX, XArg.ensure, ih]
  have hmap : (is.map fun i => XArg.user (byRef (g := g) (s0 := s0) st i)) = (is.map (byRef st)).map .user := by simp
  have hstep : xstep g (XState.init (Shared.start g s0)) (.mk f.beside (is.map fun i => .user (byRef st i))) =
      (.unit, ⟨[lazyX f.beside ((is.map (byRef st)).map .user)], ⟨Shared.start g s0, []⟩⟩) := by
    rw [hmap]
    simp only [xstep, XState.init, hens, List.nil_append]
  have hl : l.map (refOp g s0) = (l.map asElse).map watchOp := by
    rw [List.map_map]
    apply List.map_congr_left
    intro a _
    cases a <;> rfl
  intro y x
  obtain ⟨⟨o, h1, h2⟩, h3, h4⟩ := watch_run_rel g hg hv hr (l.map asElse) (⟨f.beside, is.map (byRef st), none⟩ : Watch D (Shared g s0) E S)
    ⟨[lazyX f.beside ((is.map (byRef st)).map .user)], ⟨Shared.start g s0, []⟩⟩ ⟨_, rfl, Cache.empty f.ret, rfl, Cache.empty_fits _, Cache.empty_val? _⟩ hlone
  have hy : y = (xrun g ⟨[lazyX f.beside ((is.map (byRef st)).map .user)], ⟨Shared.start g s0, []⟩⟩
      ((l.map asElse).map watchOp)).2 := by
    simp only [y, xafter, xrun, hstep, hl]
  rw [← hy] at h1 h3
  obtain ⟨k1, -, k3, -, -⟩ := watch_call g hg hv hr _ o y.env h2 h4
  have h3' : y.env.w = x.2.2 := h3
  rw [h3'] at k1 k3
  refine ⟨h3', ?_, ?_⟩
  · simp only [xstep, h1, List.getElem?_cons_zero]
    exact k1
  · simp only [xstep, h1, List.getElem?_cons_zero]
    exact k3

/-- **C77, by reference, exclusively** (for code that keeps the state of the called object, with results by value): a lazy function of `std::ref(x)...` returns
what eager evaluation gives, if nobody else evaluates the `x...`.

Missing for the full property: others that do, see `C77_by_ref_stale`. -/
theorem C77_by_ref_exclusive_partial (hs : SoundNe D) (g : Glue) (hg : g.Retains) (hv : g.resultByRef = false) (hr : g.regParamByValue = false)
    (m : Meaning D W E S O) (w : W) (prog : List (Op D W E S)) (hok : ∀ t ∈ runTrees [] prog, TreeOk g m t) (f : UFn D W E S) (st : S) (is : List Nat)
    (us : List (Tree D W E S)) (hus : is.map (fun i => (runTrees [] prog)[i]?) = us.map some) (hf : TreeOk g m (.lazy f.toFnCode us))
    (l : List (Option (Use D W E S))) (hex : ∀ op, some op ∈ l → ∀ i ∈ is, ¬ op.1.evaluates i) :
    let y := xafter g (Shared.start g (after g w prog)) (.mk f.beside (is.map fun i => .user (byRef st i)) :: l.map (refOp g (after g w prog)))
    (xstep g y (.call 0)).1 = .ret (.ok (m.result (m.obs y.env.w.1.env.w) (.lazy f.toFnCode us))) := by
  have his : ∀ i ∈ is, ∃ t, (runTrees [] prog)[i]? = some t := refs_exist hus
  have hnow : ∀ o, is.map (m.nowOf (runTrees [] prog) o) = (us.map (m.eager o)).map some := refs_now m hus
  have hfo : m.FnOk f.toFnCode := by cases hf.1 with | lazy _ _ h _ => exact h
  have hlone : NoTupleAlone ((is.map (byRef (g := g) (s0 := after g w prog) st)).map LFn.toLCode) :=
    noTupleAlone_refs hs hg m hok st is his (refs_lone hus hf.2.1)
  intro y
  obtain ⟨h1, h2, -⟩ := ref_state g hg hv hr (s0 := after g w prog) f st is hlone l
  -- the last value is that of the last values of the dependencies
  have key : ∀ (l : List (Option (Use D W E S))), (∀ op, some op ∈ l → ∀ i ∈ is, ¬ op.1.evaluates i) →
      ∀ (x : Watch D (Shared g (after g w prog)) E S) (s : Shared g (after g w prog)), RefInv g (after g w prog) f st is x →
      (∀ v, x.last = some v → ∃ vs, is.map s.last = vs.map some ∧ v = m.fn f.toFnCode vs) →
      let r := x.run s (l.map asElse)
      RefInv g (after g w prog) f st is r.2.1 ∧ ∀ v, r.2.1.last = some v → ∃ vs, is.map r.2.2.last = vs.map some ∧ v = m.fn f.toFnCode vs := by
    intro l
    induction l with
    | nil => exact fun _ x s h1 h2 => ⟨h1, h2⟩
    | cons a l ih =>
      intro hex x s hx hlast
      cases a with
      | some op =>
        refine ih (fun a ha => hex a (by simp [ha])) x (s.use op.1 op.2).2 hx fun v hv => ?_
        obtain ⟨vs, h1, h2⟩ := hlast v hv
        refine ⟨vs, ?_, h2⟩
        rw [← h1]
        apply List.map_congr_left
        intro i hi
        obtain ⟨t, ht⟩ := his i hi
        obtain ⟨o, -, -, ho, -⟩ := s.get hs (.inl hg) m hok ht
        have := step_frame g s.1 op.1 i o ho (hex op (by simp) i hi)
        simp only [Shared.last, ho]
        rw [show (s.use op.1 op.2).2.1 = (step g s.1 op.1).2 from rfl, this]
      | none =>
        obtain ⟨v, -, c2, c3, -, c5, c6, -⟩ := ref_call hs hg m hok hfo his hx s
        refine ih (fun a ha => hex a (by simp [ha])) _ _ c3 fun v' hv' => ?_
        rw [c2] at hv'
        cases hv'
        have h5 : is.map (x.call s).2.2.last = is.map (m.nowOf (runTrees [] prog) (m.obs s.1.env.w)) := List.map_congr_left c5
        rcases c6 with ⟨vs, e1, e2⟩ | ⟨e1, e2⟩
        · exact ⟨vs, by rw [h5, e1], e2⟩
        · obtain ⟨vs, q1, q2⟩ := hlast v e1
          exact ⟨vs, by rw [h5, ← List.map_congr_left e2, q1], q2⟩
  obtain ⟨k1, k2⟩ := key l hex ⟨f.beside, is.map (byRef st), none⟩ (Shared.start g (after g w prog)) ⟨rfl, rfl⟩ (by simp)
  rw [h2, h1]
  obtain ⟨v, c1, -, -, -, -, c6, -⟩ := ref_call hs hg m hok hfo his k1
    ((⟨f.beside, is.map (byRef st), none⟩ : Watch D (Shared g (after g w prog)) E S).run (Shared.start g (after g w prog)) (l.map asElse)).2.2
  rw [c1]
  have hval : v = m.fn f.toFnCode (us.map (m.eager (m.obs ((⟨f.beside, is.map (byRef st), none⟩ : Watch D (Shared g (after g w prog)) E S).run (Shared.start g (after g w prog))
      (l.map asElse)).2.2.1.env.w))) := by
    rcases c6 with ⟨vs, e1, e2⟩ | ⟨e1, e2⟩
    · rw [hnow] at e1
      rw [e2, map_some_inj e1]
    · obtain ⟨vs, q1, q2⟩ := k2 v e1
      rw [List.map_congr_left e2, hnow] at q1
      rw [q2, map_some_inj q1]
  have hret : ((⟨f.beside, is.map (byRef st), none⟩ : Watch D (Shared g (after g w prog)) E S).run (Shared.start g (after g w prog))
      (l.map asElse)).2.1.f.ret = f.ret := by rw [k1.code]; rfl
  simp only [Watch.seen, hret, Meaning.result, Meaning.eager, hval]
  by_cases hv : f.ret = .val <;> simp [hv, RetTy.regularize]

/-- The tree of `lazy(sum, std::ref(y), std::ref(y))`. -/
theorem twice_ok : TreeOk Glue.retained canon (.lazy sum.toFnCode [yT, yT]) := by
  have hy := yT_ok Glue.retained (.inl rfl) (.inl rfl)
  refine ⟨.lazy _ _ sum_ok ?_, .lazy _ _ (by simp) ?_, .inl rfl⟩ <;> intro t ht <;> simp at ht <;> subst ht
  · exact hy.1
  · exact hy.2.1

/-- `lazy(sum, std::ref(y), std::ref(y))`, called; the world changes from 6 to 10; others call `x`, but not `y`; `y` is 20. -/
example : (xstep Glue.retained (xafter Glue.retained (Shared.start Glue.retained (after Glue.retained 6 nested)) (.mk sum.beside ([1, 1].map fun i => .user (byRef 0 i)) ::
      ([none, some (Use.poke (· + 4)), some (Use.call 0)] : List (Option (Use Int Int Nat Nat))).map (refOp _ _))) (.call 0)).1 = .ret (.ok (some (.data 40))) := by
  have hw : (xafter Glue.retained (Shared.start Glue.retained (after Glue.retained 6 nested)) (.mk sum.beside ([1, 1].map fun i => .user (byRef 0 i)) ::
      ([none, some (Use.poke (· + 4)), some (Use.call 0)] : List (Option (Use Int Int Nat Nat))).map (refOp _ _))).env.w.1.env.w = 10 := by decide +kernel
  have h := C77_by_ref_exclusive_partial soundNe Glue.retained ⟨rfl, rfl, rfl, rfl⟩ rfl rfl canon 6 nested nested_ok sum 0 [1, 1] [yT, yT] rfl twice_ok
    [none, some (Use.poke (· + 4)), some (Use.call 0)] (by
      intro op hop i hi
      simp only [List.mem_cons, List.not_mem_nil, or_false, reduceCtorEq, Option.some.injEq, false_or] at hop hi
      rcases hop with rfl | rfl <;> rcases hi with rfl | rfl <;> simp [Op.evaluates, Use.call, Use.poke])
  simp only [hw] at h
  rw [h]
  simp [Meaning.result, Meaning.eager, canon, sum, halfArg, rd, half, xT, yT, toInt, RetTy.regularize]

/-- **C77, by reference, not exclusively**: a lazy function `y` of `std::ref(x)...` does not notice what others noticed before: after a call of `y`, any change
of the world, and calls of all the `x...` by others, `y` returns what it returned before, whatever the change, the functions, and the history. -/
theorem C77_by_ref_stale (hs : SoundNe D) (hrefl : ReflNe D) (g : Glue) (hg : g.Retains) (hv : g.resultByRef = false) (hr : g.regParamByValue = false)
    (m : Meaning D W E S O) (w : W) (prog : List (Op D W E S)) (hok : ∀ t ∈ runTrees [] prog, TreeOk g m t) (f : UFn D W E S) (st : S) (is : List Nat)
    (us : List (Tree D W E S)) (hus : is.map (fun i => (runTrees [] prog)[i]?) = us.map some) (hf : TreeOk g m (.lazy f.toFnCode us))
    (l : List (Option (Use D W E S))) (h : W → W) :
    let y := xafter g (Shared.start g (after g w prog)) (.mk f.beside (is.map fun i => .user (byRef st i)) :: l.map (refOp g (after g w prog)))
    let y' := xafter g (Shared.start g (after g w prog)) (.mk f.beside (is.map fun i => .user (byRef st i)) ::
      (l ++ none :: some (Use.poke h) :: is.map fun i => some (Use.call i)).map (refOp g (after g w prog)))
    (∃ v, (xstep g y (.call 0)).1 = .ret (.ok v) ∧ (xstep g y' (.call 0)).1 = .ret (.ok v)) ∧
    m.obs y'.env.w.1.env.w = m.obs (h (xstep g y (.call 0)).2.env.w.1.env.w) := by
  have his : ∀ i ∈ is, ∃ t, (runTrees [] prog)[i]? = some t := refs_exist hus
  have hfo : m.FnOk f.toFnCode := by cases hf.1 with | lazy _ _ h _ => exact h
  have hlone : NoTupleAlone ((is.map (byRef (g := g) (s0 := after g w prog) st)).map LFn.toLCode) :=
    noTupleAlone_refs hs hg m hok st is his (refs_lone hus hf.2.1)
  intro y y'
  obtain ⟨h1, h2, h3⟩ := ref_state g hg hv hr (s0 := after g w prog) f st is hlone l
  obtain ⟨h1', h2', -⟩ := ref_state g hg hv hr (s0 := after g w prog) f st is hlone
    (l ++ none :: some (Use.poke h) :: is.map fun i => some (Use.call i))
  have key : ∀ (l : List (Option (Use D W E S))) (x : Watch D (Shared g (after g w prog)) E S) (s : Shared g (after g w prog)),
      RefInv g (after g w prog) f st is x → RefInv g (after g w prog) f st is (x.run s (l.map asElse)).2.1 := by
    intro l
    induction l with
    | nil => exact fun x s h => h
    | cons a l ih =>
      intro x s hx
      cases a with
      | some op => exact ih x _ hx
      | none =>
        obtain ⟨v, -, -, c3, -⟩ := ref_call hs hg m hok hfo his hx s
        exact ih _ _ c3
  have else' : ∀ (js : List Nat) (x : Watch D (Shared g (after g w prog)) E S) (s : Shared g (after g w prog)),
      (x.run s ((js.map fun i => some (Use.call (D := D) (W := W) (E := E) (S := S) i)).map asElse)).2 =
        (x, s.elsewhere (js.map fun i => Use.call i)) := by
    intro js
    induction js with
    | nil => exact fun x s => rfl
    | cons j js ih => exact fun x s => ih x _
  have hx := key l ⟨f.beside, is.map (byRef st), none⟩ (Shared.start g (after g w prog)) ⟨rfl, rfl⟩
  rw [List.map_append (f := asElse), Watch.run_append] at h1' h2'
  simp only [List.map_cons, asElse, Watch.run, else'] at h1' h2'
  generalize (⟨f.beside, is.map (byRef st), none⟩ : Watch D (Shared g (after g w prog)) E S).run (Shared.start g (after g w prog)) (l.map asElse) =
    x at hx h1 h2 h3 h1' h2'
  obtain ⟨v, c1, c2, c3, c4, c5, -, -⟩ := ref_call hs hg m hok hfo his hx x.2.2
  generalize hs1 : ((x.2.1.call x.2.2).2.2.use (Use.poke (D := D) (E := E) (S := S) h).1 (Use.poke (D := D) (E := E) (S := S) h).2).2 = s1 at h1' h2'
  obtain ⟨d1, d2, -⟩ := calls_last hs hg m hok is his s1
  obtain ⟨v', e1, -, -, -, -, -, e7⟩ := ref_call hs hg m hok hfo his c3 (s1.elsewhere (is.map fun i => Use.call i))
  have hvv : v' = v := e7 hrefl (by rw [d1]; exact d2) v c2
  have hret : ∀ {z : Watch D (Shared g (after g w prog)) E S}, RefInv g (after g w prog) f st is z → z.f.ret = f.ret := fun hz => by rw [hz.code]; rfl
  refine ⟨⟨if f.ret = .val then some v else none, ?_, ?_⟩, ?_⟩
  · rw [h2, c1]; simp only [Watch.seen, hret hx]
  · rw [h2', e1, hvv]; simp only [Watch.seen, hret c3]
  · rw [h1', d1, h3, ← hs1]; rfl

/-- The same function: the world changes from 6 to 10, others call `y`, which is 20 now; the function returns 2 · 16, where eager evaluation gives 2 · 20. -/
theorem C77_by_ref_not_fresh :
    let s := xafter Glue.retained (Shared.start Glue.retained (after Glue.retained 6 nested)) (.mk sum.beside ([1, 1].map fun i => .user (byRef 0 i)) ::
      ([none, some (Use.poke (· + 4)), some (Use.call 1), some (Use.call 1)] : List (Option (Use Int Int Nat Nat))).map (refOp _ _))
    (xstep Glue.retained s (.call 0)).1 = .ret (.ok (some (.data 32))) ∧
    canon.result (canon.obs s.env.w.1.env.w) (.lazy sum.toFnCode [yT, yT]) = some (.data 40) := by
  obtain ⟨⟨v, h1, h2⟩, h3⟩ := C77_by_ref_stale soundNe reflNe Glue.retained ⟨rfl, rfl, rfl, rfl⟩ rfl rfl canon 6 nested nested_ok sum 0 [1, 1] [yT, yT] rfl twice_ok [] (· + 4)
  have hw : (xafter Glue.retained (Shared.start Glue.retained (after Glue.retained 6 nested)) (.mk sum.beside ([1, 1].map fun i => .user (byRef 0 i)) ::
      ([] : List (Option (Use Int Int Nat Nat))).map (refOp _ _))).env.w.1.env.w = 6 := by decide +kernel
  have h4 := C77_by_ref_exclusive_partial soundNe Glue.retained ⟨rfl, rfl, rfl, rfl⟩ rfl rfl canon 6 nested nested_ok sum 0 [1, 1] [yT, yT] rfl twice_ok [] (by simp)
  simp only [hw] at h4
  have hv : v = some (.data 32) := by
    have := h4.symm.trans h1
    simp only [Obs.ret.injEq, Out.ok.injEq] at this
    rw [← this]
    simp [Meaning.result, Meaning.eager, canon, sum, halfArg, rd, half, xT, yT, toInt, RetTy.regularize]
  intro s
  refine ⟨by rw [← hv]; exact h2, ?_⟩
  have hs : s.env.w.1.env.w = 10 := by decide +kernel
  rw [hs]
  simp [Meaning.result, Meaning.eager, canon, sum, halfArg, rd, half, xT, yT, toInt, RetTy.regularize]

end Pigro
