import Verif.Props.LazyD
/-!
# Exactly which glue has which property

`C04_exact` and `C50_exact` for further properties: of all ways to hand function, dependencies and cache over, those for which the property holds of
every program. The types are those of the examples; the directions that prove the property hold for all types (theorems named in the proofs).
-/
namespace Pigro
open Demo

/-- Kept or dropped. -/
theorem keepsCache_or_drops (g : Glue) : g.keepsCache ∨ g.Drops := by
  obtain ⟨a, b, c, d, e1, e2, e3, e4⟩ := g
  cases a <;> cases c <;> cases d <;> simp [Glue.keepsCache, Glue.Drops]

theorem not_drops (g : Glue) : ¬ g.Drops ↔ g.keepsCache := by
  obtain ⟨a, b, c, d, e1, e2, e3, e4⟩ := g
  cases a <;> cases c <;> cases d <;> simp [Glue.keepsCache, Glue.Drops]

/-- **C02, exactly**: a function without dependencies is invoked once, over any number of calls and outside changes, iff the cache is kept. -/
theorem C02_exact (g : Glue) (hr : g.resultByRef = false) :
    (∀ (f : F) (w : Int) (x : V) (rest : List P), (f.run f.st [] w).1 = .ok x → (∀ op ∈ rest, op = .call 0 ∨ ∃ h, op = .poke h) →
      fnCalls (after g w (.mk f [] :: .call 0 :: rest)).env.log = [(f.id, [])]) ↔ g.keepsCache := by
  constructor
  · intro h
    rcases keepsCache_or_drops g with hk | hd
    · exact hk
    · have h1 := h rd 5 (.data 5) [.call 0] rfl (by simp)
      rw [C02_dropped_reinvokes g hd rd 5 [.call 0, .call 0] (by simp)] at h1
      cases h1
  · intro hg f w x rest hx hrest
    exact (C02_call_once_partial g hg f (.inl hr) w [] x hx rest hrest).1

/-- **C19, exactly**: a call that returns a value leaves that value in the object iff the cache is kept. -/
theorem C19_exact (g : Glue) (hr : g.resultByRef = false) :
    (∀ (w : Int) (ops : List P) (i : Nat) (t : T) (x : Option V), (runTrees [] ops)[i]? = some t →
      (step g (after g w ops) (.call i)).1 = .ret (.ok x) →
      ∃ o v, (step g (after g w ops) (.call i)).2.vars[i]? = some o ∧ o.lastVal = some v ∧ (x = some v ∨ x = none ∧ v = .rvoid)) ↔ g.keepsCache := by
  constructor
  · intro h
    rcases keepsCache_or_drops g with hk | hd
    · exact hk
    · exfalso
      have hcall : (step g (after g 5 [.mk rd []] : State Int Int Nat Nat) (.call 0)).1 = .ret (.ok (some (.data 5))) := by
        obtain ⟨a, b, c, d, e1, e2, e3, e4⟩ := g
        simp only at hr
        subst hr
        cases a <;> cases b <;> cases c <;> cases d <;> cases e1 <;> cases e2 <;> cases e3 <;> rfl
      obtain ⟨o, v, ho, hv, -⟩ := h 5 [.mk rd []] 0 (.lazy rd.toFnCode []) (some (.data 5)) rfl hcall
      have := C19_dropped_never_holds g hd 5 [.mk rd [], .call 0] 0 o ho
      rw [hv] at this
      cases this
  · intro hg w ops i t x ht hx
    exact C19_state_survives_partial g hg w ops i t ht x hx

/-- **C11, exactly**: `is_changed` means what it should iff the cache is kept. -/
theorem C11_exact (g : Glue) (hr : g.resultByRef = false) :
    (∀ (w : Int) (ops : List P) (i : Nat) (t : T) (r : LazyRes Int), (∀ ob ∈ (run g (State.init w) ops).1, ob ≠ .ret .ub) →
      (runTrees [] ops)[i]? = some t → (step g (after g w ops) (.poll i)).1 = .polled (.ok r) →
      ∃ last, (trackAll [] ops (run g (State.init w) ops).1)[i]? = some last ∧
        (r.isChanged = true ↔ last = none ∨ ∃ v, last = some v ∧ Val.ne v r.value = true)) ↔ g.keepsCache := by
  constructor
  · intro h
    rcases keepsCache_or_drops g with hk | hd
    · exact hk
    · exfalso
      have hpoll : (run g (State.init 5) [.mk rd [], .poll 0] : _ × State Int Int Nat Nat).1 = [.unit, .polled (.ok ⟨.data 5, true, true⟩)] ∧
          ∃ r : LazyRes Int, (step g (after g 5 [.mk rd [], .poll 0] : State Int Int Nat Nat) (.poll 0)).1 = .polled (.ok r) ∧ r.value = .data 5 := by
        obtain ⟨a, b, c, d, e1, e2, e3, e4⟩ := g
        simp only at hr
        subst hr
        cases a <;> cases b <;> cases c <;> cases d <;> cases e1 <;> cases e2 <;> cases e3 <;> exact ⟨rfl, _, rfl, rfl⟩
      obtain ⟨hrun, r, hp, hv⟩ := hpoll
      have hch := C11_dropped_always_changed g hd 5 [.mk rd [], .poll 0] 0 (.lazy rd.toFnCode []) rfl r hp
      obtain ⟨last, h1, h2⟩ := h 5 [.mk rd [], .poll 0] 0 (.lazy rd.toFnCode []) r (by rw [hrun]; simp) rfl hp
      rw [hrun] at h1
      have hl : last = some (.data 5) := by
        have : (trackAll [] [.mk rd [], .poll 0] [.unit, .polled (.ok ⟨.data 5, true, true⟩)] : List (Option V)) = [some (.data 5)] := rfl
        have h3 : ([some (.data 5)] : List (Option V))[0]? = some last := this ▸ h1
        simpa using h3.symm
      rcases h2.1 hch with h3 | ⟨v, h3, h4⟩
      · rw [hl] at h3; cases h3
      · rw [hl] at h3
        cases h3
        rw [hv] at h4
        simp [Val.ne, CxxData.ne] at h4
  · intro hg w ops i t r hub ht hp
    exact C11_is_changed_partial reflNe g hg w ops hub i t ht r hp

/-- One call and another of `lazy(sum, rd)`: two invocations, unless everything is kept. -/
theorem sum_twice (g : Glue) (hr : g.resultByRef = false) (hg : ¬ g.Retains) :
    fnCalls (after g 5 [.mk sum [.function rd], .call 0] : State Int Int Nat Nat).env.log = [(3, [.data 5])] ∧
    fnCalls (step g (after g 5 [.mk sum [.function rd], .call 0] : State Int Int Nat Nat) (.call 0)).2.env.log = [(3, [.data 5]), (3, [.data 5])] := by
  obtain ⟨a, b, c, d, e1, e2, e3, e4⟩ := g
  simp only at hr
  subst hr
  cases a <;> cases b <;> cases c <;> cases d <;> cases e1 <;> cases e2 <;> cases e3 <;>
    first | exact ⟨rfl, rfl⟩ | exact absurd ⟨rfl, rfl, rfl, rfl⟩ hg

/-- **C05, exactly**: unchanged dependency values cause no invocation iff everything is kept. (Not enough: keeping only the cache.) -/
theorem C05_exact (g : Glue) (hr : g.resultByRef = false) :
    (∀ (w : Int) (ops1 ops2 : List P) (i : Nat) (c : FnCode Int Int Nat Nat) (deps : List T), (runTrees [] ops1)[i]? = some (.lazy c deps) →
      (∀ t ∈ runTrees [] ops1, TreeOk g canon t) → (∀ op ∈ ops2, ¬ op.evaluates i) → (Tree.lazy c deps).postIds.Nodup →
      (∀ d ∈ deps, canon.eager (canon.obs (after g w ops1).env.w) d = canon.eager (canon.obs (after g w (ops1 ++ .call i :: ops2)).env.w) d) →
      (step g (after g w (ops1 ++ .call i :: ops2)) (.call i)).1 = (step g (after g w ops1) (.call i)).1 ∧
      ∃ new, fnCalls (step g (after g w (ops1 ++ .call i :: ops2)) (.call i)).2.env.log =
        fnCalls (after g w (ops1 ++ .call i :: ops2)).env.log ++ new ∧ c.id ∉ new.map (·.1)) ↔ g.Retains := by
  constructor
  · intro h
    refine Classical.byContradiction fun hg => ?_
    obtain ⟨h1, h2⟩ := sum_twice g hr hg
    obtain ⟨-, new, h3, h4⟩ := h 5 [.mk sum [.function rd]] [] 0 sum.toFnCode [.function rd.toFnCode] rfl (by
        intro t ht
        have ht' : t ∈ [(.lazy sum.toFnCode [.function rd.toFnCode] : T)] := ht
        simp at ht'
        subst ht'
        refine ⟨.lazy _ _ sum_ok ?_, .lazy _ _ ?_ ?_, .inl hr⟩
        · intro t ht; simp at ht; subst ht; exact .function _ rd_ok
        · intro t ht o vs
          simp at ht; subst ht
          exact not_tup _ (by intro o vs h; cases h) o vs
        · intro t ht; simp at ht; subst ht; exact .function _) (by simp) (by simp [Tree.postIds, sum, rd]) (by
        intro d hd
        simp at hd
        subst hd
        have : (after g 5 ([.mk sum [.function rd]] ++ [.call 0]) : State Int Int Nat Nat).env.w = 5 := by
          obtain ⟨a, b, c, d, e1, e2, e3, e4⟩ := g
          simp only at hr
          subst hr
          cases a <;> cases b <;> cases c <;> cases d <;> cases e1 <;> cases e2 <;> cases e3 <;> rfl
        rw [this]; rfl)
    have h1' : fnCalls (after g 5 ([.mk sum [.function rd]] ++ [.call 0]) : State Int Int Nat Nat).env.log = [(3, [.data 5])] := h1
    have h2' : fnCalls (step g (after g 5 ([.mk sum [.function rd]] ++ [.call 0]) : State Int Int Nat Nat) (.call 0)).2.env.log =
        [(3, [.data 5]), (3, [.data 5])] := h2
    rw [h1', h2'] at h3
    simp only [List.singleton_append, List.cons.injEq, true_and] at h3
    apply h4
    rw [← h3]
    simp [sum]
  · intro hg w ops1 ops2 i c deps ht hok hne hnd hsame
    exact C05_no_reevaluation_partial soundNe reflNe g hg canon w ops1 ops2 i c deps ht hok hne hnd hsame

/-- **C18, exactly**: callables keep their own state iff they and all that holds them are handed over by reference (the cache does not matter). -/
theorem C18_exact (g : Glue) (hr : g.resultByRef = false) :
    (∀ (w : Int) (ops rest : List P) (i : Nat) (t : T), (runTrees [] ops)[i]? = some t → t.postIds.Nodup →
      (∀ op ∈ rest, op = .call i ∨ op = .poll i ∨ ∃ h, op = .poke h) →
      ∃ o evs, (after g w ops).vars[i]? = some o ∧ o.insts.map (·.1) = t.postIds ∧
        (after g w (ops ++ rest)).env.log = (after g w ops).env.log ++ evs ∧
        ∀ x st, (x, st) ∈ o.insts → ∃ st', ChainFrom st (runsOf x evs) st') ↔
    (g.coreParamsByValue = false ∧ g.unwrapParamByValue = false ∧ g.facadeParamByValue = false ∧ g.regParamByValue = false ∧
      g.wrapParamByValue = false) := by
  have nochain : ¬ ∃ st', ChainFrom (0 : Nat) [(0, 1), (0, 1)] st' := by
    rintro ⟨st', h⟩
    cases h with
    | cons _ _ h => cases h
  constructor
  · intro h
    refine Classical.byContradiction fun hg => ?_
    obtain ⟨o, evs, ho, -, hlog, hch⟩ := h 0 [.mk sum [.function tick]] [.call 0, .call 0] 0 (.lazy sum.toFnCode [.function tick.toFnCode]) rfl
      (by simp [Tree.postIds, sum, tick]) (by simp)
    have hevs : (after g 0 ([.mk sum [.function tick]] ++ [.call 0, .call 0]) : State Int Int Nat Nat).env.log = evs := by
      rw [hlog]; rfl
    have hi : o.insts = [(10, 0), (3, 0)] := by
      have ho' : (after g 0 [.mk sum [.function tick]] : State Int Int Nat Nat).vars[0]? = some (.unregularized (.unwrapped (.core (.regularized sum)
        (.opt none) [.core (.wrapDep tick) (.opt none) [.lazyValue (.data 0) true]]))) := rfl
      rw [ho'] at ho
      cases ho
      rfl
    have hr2 : runsOf 10 (after g 0 ([.mk sum [.function tick]] ++ [.call 0, .call 0]) : State Int Int Nat Nat).env.log = [(0, 1), (0, 1)] ∨
        runsOf 3 (after g 0 ([.mk sum [.function tick]] ++ [.call 0, .call 0]) : State Int Int Nat Nat).env.log = [(0, 1), (0, 1)] := by
      obtain ⟨a, b, c, d, e1, e2, e3, e4⟩ := g
      simp only at hr
      subst hr
      cases a <;> cases b <;> cases c <;> cases d <;> cases e1 <;> cases e2 <;> cases e3 <;>
        first | exact .inl rfl | exact .inr rfl | exact absurd ⟨rfl, rfl, rfl, rfl, rfl⟩ hg
    rw [hevs] at hr2
    rcases hr2 with h2 | h2
    · exact nochain (h2 ▸ hch 10 0 (by rw [hi]; simp))
    · exact nochain (h2 ▸ hch 3 0 (by rw [hi]; simp))
  · intro hg w ops rest i t ht hnd hrest
    exact C18_own_state_persists_partial g (by simp [Glue.keepsFns, hg]) w ops rest i t ht hnd hrest

/-- **C16, exactly**: no call or poll of any program reads a dead object iff results are values (a `void` function suffices to show otherwise). -/
theorem C16_exact (g : Glue) :
    (∀ (w : Int) (ops : List P) (i : Nat) (t : T), (runTrees [] ops)[i]? = some t →
      (∃ r, (step g (after g w ops) (.call i)).1 = .ret r ∧ r.defined = true) ∧
      (∃ r, (step g (after g w ops) (.poll i)).1 = .polled r ∧ r.defined = true ∧ ∀ x, r = .ok x → x.live = true)) ↔ g.resultByRef = false := by
  constructor
  · intro h
    cases hr : g.resultByRef with
    | false => rfl
    | true =>
      exfalso
      obtain ⟨-, r, h1, -, h3⟩ := h 5 [.mk proc []] 0 (.lazy proc.toFnCode []) rfl
      have h4 : ∃ x : LazyRes Int, (step g (after g 5 [.mk proc []] : State Int Int Nat Nat) (.poll 0)).1 = .polled (.ok x) ∧ x.live = false := by
        obtain ⟨a, b, c, d, e1, e2, e3, e4⟩ := g
        simp only at hr
        subst hr
        cases a <;> cases b <;> cases c <;> cases d <;> cases e1 <;> cases e2 <;> cases e3 <;> exact ⟨_, rfl, rfl⟩
      obtain ⟨x, h4, h5⟩ := h4
      rw [h4] at h1
      have h6 := h3 x (by simpa using h1.symm)
      rw [h5] at h6
      cases h6
  · intro hg w ops i t ht
    exact C16_no_dangling_partial g w ops i t ht (.inl hg)

/-- **C16, exactly, without `void`**: for programs without `void` functions, iff results are values or all four copies on the way are gone. -/
theorem C16_exact_nonvoid (g : Glue) :
    (∀ (w : Int) (ops : List P) (i : Nat) (t : T), (runTrees [] ops)[i]? = some t → t.NoVoid →
      (∃ r, (step g (after g w ops) (.call i)).1 = .ret r ∧ r.defined = true) ∧
      (∃ r, (step g (after g w ops) (.poll i)).1 = .polled r ∧ r.defined = true ∧ ∀ x, r = .ok x → x.live = true)) ↔
    (g.resultByRef = false ∨ (g.bindFrontCopies = false ∧ g.unwrapParamByValue = false ∧ g.facadeParamByValue = false ∧
      g.valueParamByValue = false)) := by
  constructor
  · intro h
    refine Classical.byContradiction fun hg => ?_
    obtain ⟨-, r, h1, h2, h3⟩ := h 5 [.mk sum [.value (.data 1)]] 0 (.lazy sum.toFnCode [.value (.data 1)]) rfl
      (.lazy _ _ rfl (by intro t ht; simp at ht; subst ht; exact .value _))
    have h4 : (step g (after g 5 [.mk sum [.value (.data 1)]] : State Int Int Nat Nat) (.poll 0)).1 = .polled .ub ∨
        ∃ x : LazyRes Int, (step g (after g 5 [.mk sum [.value (.data 1)]] : State Int Int Nat Nat) (.poll 0)).1 = .polled (.ok x) ∧ x.live = false := by
      obtain ⟨a, b, c, d, e1, e2, e3, e4⟩ := g
      cases a <;> cases b <;> cases c <;> cases d <;> cases e1 <;> cases e2 <;> cases e3 <;> cases e4 <;>
        first | exact .inl rfl | exact .inr ⟨_, rfl, rfl⟩ | exact absurd (.inl rfl) hg | exact absurd (.inr ⟨rfl, rfl, rfl, rfl⟩) hg
    rcases h4 with h4 | ⟨x, h4, h5⟩
    · rw [h4] at h1
      cases h1
      cases h2
    · rw [h4] at h1
      have h6 := h3 x (by simpa using h1.symm)
      rw [h5] at h6
      cases h6
  · intro hg w ops i t ht hv
    refine C16_no_dangling_partial g w ops i t ht ?_
    rcases hg with hg | ⟨a, b, c, d⟩
    · exact .inl hg
    · exact .inr ⟨a, b, c, d, hv⟩

/-- Where the documented design and the pinned code stand. -/
example : Glue.retained.keepsCache ∧ Glue.retained.Retains ∧ Glue.retained.resultByRef = false ∧
    ¬ Glue.asWritten.keepsCache ∧ ¬ Glue.asWritten.Retains ∧ Glue.asWritten.resultByRef = true ∧ ¬ copying.keepsCache := by
  simp [Glue.retained, Glue.asWritten, copying, Glue.keepsCache, Glue.Retains]

end Pigro
