import Verif.Spec.CallOnce
import Verif.Proofs.Handwritten
/-!
# Proofs: simplified versions of `lazy`
-/
namespace Pigro
variable {D W E S : Type} [CxxData D]

omit [CxxData D] in
/-- The corresponding object of the library. -/
def Simple.obj : Simple D W E S → Obj D W E S
  | .once f b => .unregularized (.unwrapped (.core (.regularized f) (.rv ⟨b⟩) []))
  | .cached f c => .unregularized (.unwrapped (.core (.regularized f) (.opt c) []))

omit [CxxData D] in
/-- The wrapped function. -/
def Simple.fn : Simple D W E S → UFn D W E S
  | .once f _ => f
  | .cached f _ => f

omit [CxxData D] in
/-- Flags belong to functions without result. -/
def Simple.Typed (g : Glue) : Simple D W E S → Prop
  | .once f _ => f.ret ≠ .val ∧ f.Kept g.regParamByValue
  | .cached f _ => f.ret = .val ∧ f.Kept g.regParamByValue

theorem simpleLazy_obj (f : UFn D W E S) : pigroLazy f [] = some (simpleLazy f).obj := by
  simp only [pigroLazy, ensureAll, detailLazy, Fun.ret, simpleLazy]
  cases hr : f.ret <;> simp [Simple.obj, Cache.empty, OptRV.default]

omit [CxxData D] in
theorem simpleLazy_typed (g : Glue) (f : UFn D W E S) (hk : f.Kept g.regParamByValue) : (simpleLazy f).Typed g := by
  simp only [simpleLazy]
  cases hr : f.ret <;> simp [Simple.Typed, hr, hk]

theorem simple_call (g : Glue) (hg : g.Retains) (hval : g.resultByRef = false) (o : Simple D W E S) (ho : o.Typed g) (env : Env D W S) :
    call0 g o.obj env = ((o.call env).1, (o.call env).2.1.obj, (o.call env).2.2) ∧ (o.call env).2.1.Typed g := by
  obtain ⟨g1, g2, g3, g4⟩ := hg
  have hd : evalDeps (E := E) g [] env = (.ok [], [], env) := by simp [evalDeps]
  have hrv : readValues ([] : List (LazyRes D)) = some [] := rfl
  cases o with
  | once f b =>
    obtain ⟨ht, hk⟩ := ho
    cases b with
    | true =>
      refine ⟨?_, ht, hk⟩
      simp only [Simple.obj, Simple.call, if_true]
      rw [call0_facade, evalN_core_ok g _ _ _ _ hd, coreTail_skip g _ _ _ _ .rvoid (by rfl) (by rfl)]
      simp [g1, g2, g3, g4, hval, Glue.coreLive, Obj.valueIsRV]
    | false =>
      have hf : (Cache.rv ⟨false⟩ : Cache D).Fits f.ret := ht
      simp only [Simple.obj, Simple.call, UFn.invoke, Bool.false_eq_true, if_false]
      rcases hr : f.run f.st [] env.w with ⟨e | v, s, w⟩
      · have hc : Fun.call g (.regularized f) [] env = (.thrown e, .regularized { f with st := s }, ⟨w, env.log ++ [.call .fn f.id [] f.st s]⟩) := by
          have := hk.keep [] env.w
          rw [hr] at this
          simp only [Fun.call, UFn.invoke, hr, this]
        rw [call0_facade, evalN_core_ok g _ _ _ _ hd, coreTail_throw g _ _ _ _ env _ [] e (by rfl) hrv hc]
        simp [g1, g2, g3, g4, Simple.Typed, ht, hk.next]
      · have hc : Fun.call g (.regularized f) [] env = (.ok (f.ret.regularize v), .regularized { f with st := s }, ⟨w, env.log ++ [.call .fn f.id [] f.st s]⟩) := by
          have := hk.keep [] env.w
          rw [hr] at this
          simp only [Fun.call, UFn.invoke, hr, this]
        rw [call0_facade, evalN_core_ok g _ _ _ _ hd, coreTail_run g _ _ _ _ env _ [] f.ret v (by rfl) hrv hc hf]
        simp [g1, g2, g3, g4, hval, Glue.coreLive, Obj.valueIsRV, Simple.Typed, ht, hk.next, cmpEvents, Cache.assign, OptRV.assign]
  | cached f c =>
    obtain ⟨ht, hk⟩ := ho
    cases c with
    | some v =>
      refine ⟨?_, ht, hk⟩
      simp only [Simple.obj, Simple.call]
      rw [call0_facade, evalN_core_ok g _ _ _ _ hd, coreTail_skip g _ _ _ _ v (by rfl) (by rfl)]
      simp [g1, g2, g3, g4, hval, Glue.coreLive, Obj.valueIsRV]
    | none =>
      have hf : (Cache.opt none : Cache D).Fits f.ret := ht
      simp only [Simple.obj, Simple.call, UFn.invoke]
      rcases hr : f.run f.st [] env.w with ⟨e | v, s, w⟩
      · have hc : Fun.call g (.regularized f) [] env = (.thrown e, .regularized { f with st := s }, ⟨w, env.log ++ [.call .fn f.id [] f.st s]⟩) := by
          have := hk.keep [] env.w
          rw [hr] at this
          simp only [Fun.call, UFn.invoke, hr, this]
        rw [call0_facade, evalN_core_ok g _ _ _ _ hd, coreTail_throw g _ _ _ _ env _ [] e (by rfl) hrv hc]
        simp [g1, g2, g3, g4, Simple.Typed, ht, hk.next]
      · have hc : Fun.call g (.regularized f) [] env = (.ok (f.ret.regularize v), .regularized { f with st := s }, ⟨w, env.log ++ [.call .fn f.id [] f.st s]⟩) := by
          have := hk.keep [] env.w
          rw [hr] at this
          simp only [Fun.call, UFn.invoke, hr, this]
        rw [call0_facade, evalN_core_ok g _ _ _ _ hd, coreTail_run g _ _ _ _ env _ [] f.ret v (by rfl) hrv hc hf]
        simp [g1, g2, g3, g4, hval, Glue.coreLive, Obj.valueIsRV, Simple.Typed, ht, hk.next, cmpEvents, Cache.assign, RetTy.regularize]

theorem simple_step (g : Glue) (hg : g.Retains) (hval : g.resultByRef = false) (s : List (Simple D W E S) × Env D W S) (hs : ∀ o ∈ s.1, o.Typed g)
    (op : SOp D W E S) (hop : ∀ f ∈ SOp.fns [op], f.Kept g.regParamByValue) :
    step g ⟨s.1.map Simple.obj, s.2⟩ op.withLibrary = ((simpleStep s op).1, ⟨(simpleStep s op).2.1.map Simple.obj, (simpleStep s op).2.2⟩) ∧
      ∀ o ∈ (simpleStep s op).2.1, o.Typed g := by
  cases op with
  | mk f =>
    have hk : f.Kept g.regParamByValue := hop f (by simp [SOp.fns])
    refine ⟨by simp [step, SOp.withLibrary, resolveAll, simpleLazy_obj, simpleStep], ?_⟩
    intro o ho
    simp only [simpleStep, List.mem_append, List.mem_singleton] at ho
    rcases ho with ho | rfl
    · exact hs o ho
    · exact simpleLazy_typed g f hk
  | copy i =>
    simp only [step, SOp.withLibrary, simpleStep, List.getElem?_map]
    rcases hi : s.1[i]? with _ | o
    · exact ⟨rfl, hs⟩
    · refine ⟨by simp, ?_⟩
      intro o' ho'
      simp only [List.mem_append, List.mem_singleton] at ho'
      rcases ho' with ho' | rfl
      · exact hs o' ho'
      · exact hs _ (List.mem_of_getElem? hi)
  | call i =>
    simp only [step, SOp.withLibrary, simpleStep, List.getElem?_map]
    rcases hi : s.1[i]? with _ | o
    · exact ⟨rfl, hs⟩
    · obtain ⟨h1, h2⟩ := simple_call g hg hval o (hs o (List.mem_of_getElem? hi)) s.2
      simp only [Option.map_some, h1]
      refine ⟨by rw [List.map_set], ?_⟩
      intro o' ho'
      rcases List.mem_or_eq_of_mem_set ho' with h | rfl
      · exact hs o' h
      · exact h2
  | poke h => exact ⟨rfl, hs⟩

theorem simple_run (g : Glue) (hg : g.Retains) (hval : g.resultByRef = false) (ops : List (SOp D W E S)) : ∀ (s : List (Simple D W E S) × Env D W S),
    (∀ o ∈ s.1, o.Typed g) → (∀ f ∈ SOp.fns ops, f.Kept g.regParamByValue) →
    run g ⟨s.1.map Simple.obj, s.2⟩ (ops.map SOp.withLibrary) = ((simpleRun s ops).1, ⟨(simpleRun s ops).2.1.map Simple.obj, (simpleRun s ops).2.2⟩) := by
  induction ops with
  | nil => intros; rfl
  | cons op ops ih =>
    intro s hs hops
    obtain ⟨h1, h2⟩ := simple_step g hg hval s hs op (by
      intro f hf
      cases op <;> simp [SOp.fns] at hf hops ⊢
      subst hf
      exact hops.1)
    have h3 := ih (simpleStep s op).2 h2 (by
      intro f hf
      cases op <;> simp [SOp.fns] at hops
      · exact hops.2 f hf
      all_goals exact hops f hf)
    simp only [List.map_cons, run, h1, simpleRun, h3]

theorem once_step (g : Glue) (hg : g.Retains) (hval : g.resultByRef = false) (vars : List (Obj D W E S)) (i : Nat) (f : UFn D W E S) (b : Bool)
    (ho : (Simple.once f b).Typed g) (hi : vars[i]? = some (Simple.once f b).obj) (env : Env D W S) :
    step g ⟨vars, env⟩ (.call i) = (.ret ((Simple.once f b).call env).1, ⟨vars.set i ((Simple.once f b).call env).2.1.obj, ((Simple.once f b).call env).2.2⟩) := by
  rw [step_call g _ i _ hi, (simple_call g hg hval _ ho env).1]

/-- Two flags: one visit. -/
theorem visit_sim (g : Glue) (hg : g.Retains) (hval : g.resultByRef = false) (s : Flags D W E S) (elsewhere : Bool) (rest : W → W) (env : Env D W S)
    (h1 : (Simple.once s.opengl s.isOpengl).Typed g) (h2 : (Simple.once s.opencl s.isOpencl).Typed g) :
    let r := s.visit true elsewhere rest env
    ensureVisit g rest ⟨[(Simple.once s.opengl s.isOpengl).obj, (Simple.once s.opencl s.isOpencl).obj], env⟩ =
      (r.1, ⟨[(Simple.once r.2.1.opengl r.2.1.isOpengl).obj, (Simple.once r.2.1.opencl r.2.1.isOpencl).obj], r.2.2⟩) ∧
    (Simple.once r.2.1.opengl r.2.1.isOpengl).Typed g ∧ (Simple.once r.2.1.opencl r.2.1.isOpencl).Typed g := by
  obtain ⟨f, c, bf, bc⟩ := s
  simp only at h1 h2
  have k1 := once_step g hg hval [(Simple.once f bf).obj, (Simple.once c bc).obj] 0 f bf h1 rfl env
  have k2 := fun (a : Obj D W E S) env => once_step g hg hval [a, (Simple.once c bc).obj] 1 c bc h2 rfl env
  have t1 : ∀ b s, (Simple.once ⟨f.toFnCode, s⟩ b).Typed g := fun _ _ => h1
  have t2 : ∀ b s, (Simple.once ⟨c.toFnCode, s⟩ b).Typed g := fun _ _ => h2
  have t1' : ∀ b, (Simple.once f b).Typed g := fun _ => h1
  have t2' : ∀ b, (Simple.once c b).Typed g := fun _ => h2
  simp only [ensureVisit, k1, Flags.visit]
  cases bf with
  | true =>
    simp only [Simple.call, if_true, Obs.discard, Out.map, List.set_cons_zero, k2]
    cases bc with
    | true => simp [t1', t2']
    | false =>
      simp only [UFn.invoke, Bool.false_eq_true, if_false]
      rcases c.run c.st [] env.w with ⟨e | v, s, w⟩ <;> simp [t1', t2]
  | false =>
    simp only [Simple.call, UFn.invoke, Bool.false_eq_true, if_false]
    rcases f.run f.st [] env.w with ⟨e | v, sf, wf⟩
    · simp [t1, t2', Obs.discard, Out.map]
    · simp only [Obs.discard, Out.map, List.set_cons_zero, k2]
      cases bc with
      | true => simp [Simple.call, t1, t2']
      | false =>
        simp only [Simple.call, UFn.invoke, Bool.false_eq_true, if_false]
        rcases c.run c.st [] wf with ⟨e | v, s, w⟩ <;> simp [t1, t2]

theorem visits_sim (g : Glue) (hg : g.Retains) (hval : g.resultByRef = false) (l : List (Bool × (W → W))) : ∀ (s : Flags D W E S) (env : Env D W S),
    (Simple.once s.opengl s.isOpengl).Typed g → (Simple.once s.opencl s.isOpencl).Typed g →
    let a := ensureVisits g ⟨[(Simple.once s.opengl s.isOpengl).obj, (Simple.once s.opencl s.isOpencl).obj], env⟩ l
    let b := s.visits true env l
    a.1 = b.1 ∧ a.2.env = b.2.2 := by
  induction l with
  | nil => intros; exact ⟨rfl, rfl⟩
  | cons x l ih =>
    obtain ⟨elsewhere, rest⟩ := x
    intro s env h1 h2
    obtain ⟨k1, k2, k3⟩ := visit_sim g hg hval s elsewhere rest env h1 h2
    simp only [ensureVisits, Flags.visits, k1]
    have := ih (s.visit true elsewhere rest env).2.1 (s.visit true elsewhere rest env).2.2 k2 k3
    exact ⟨by rw [this.1], this.2⟩

omit [CxxData D] in
/-- How often the two are initialized in a visit of the handwritten program. -/
theorem visit_counts (fixed elsewhere : Bool) (rest : W → W) (s : Flags D W E S) (env : Env D W S) (hid : s.opengl.id ≠ s.opencl.id)
    (h1 : ∀ st w, ∃ v, (s.opengl.run st [] w).1 = .ok v) (h2 : ∀ st w, ∃ v, (s.opencl.run st [] w).1 = .ok v) :
    let r := s.visit fixed elsewhere rest env
    r.1 = .ok () ∧ r.2.1.opengl.toFnCode = s.opengl.toFnCode ∧ r.2.1.opencl.toFnCode = s.opencl.toFnCode ∧ r.2.1.isOpengl = true ∧
    r.2.1.isOpencl = (s.isOpencl || fixed || !elsewhere) ∧
    drawn s.opengl.id r.2.2.log = drawn s.opengl.id env.log + (if s.isOpengl then 0 else 1) ∧
    drawn s.opencl.id r.2.2.log = drawn s.opencl.id env.log + (if s.isOpencl then 0 else 1) := by
  obtain ⟨f, c, bf, bc⟩ := s
  simp only at h1 h2 hid
  have d1 : ∀ a b, drawn f.id [(.call .fn f.id [] a b : Ev D S)] = 1 := by intros; simp [drawn]
  have d2 : ∀ a b, drawn c.id [(.call .fn c.id [] a b : Ev D S)] = 1 := by intros; simp [drawn]
  have d3 : ∀ a b, drawn f.id [(.call .fn c.id [] a b : Ev D S)] = 0 := by intros; simp [drawn, Ne.symm hid]
  have d4 : ∀ a b, drawn c.id [(.call .fn f.id [] a b : Ev D S)] = 0 := by intros; simp [drawn, hid]
  have second : ∀ (f' : UFn D W E S) (env' : Env D W S), f'.toFnCode = f.toFnCode → ∀ x y : Nat, drawn f.id env'.log = x → drawn c.id env'.log = y →
      let r := Flags.visit fixed elsewhere rest ⟨f', c, true, bc⟩ env'
      r.1 = .ok () ∧ r.2.1.opengl.toFnCode = f.toFnCode ∧ r.2.1.opencl.toFnCode = c.toFnCode ∧ r.2.1.isOpengl = true ∧
      r.2.1.isOpencl = (bc || fixed || !elsewhere) ∧ drawn f.id r.2.2.log = x ∧ drawn c.id r.2.2.log = y + (if bc then 0 else 1) := by
    intro f' env' hf' x y hx hy
    subst hx hy
    simp only [Flags.visit, if_true]
    cases bc with
    | true => simp [hf', Env.poke]
    | false =>
      simp only [UFn.invoke, Bool.false_eq_true, if_false]
      obtain ⟨v, hv⟩ := h2 c.st env'.w
      rcases hr : c.run c.st [] env'.w with ⟨r, s, w⟩
      rw [hr] at hv
      simp only at hv
      subst hv
      cases fixed <;> cases elsewhere <;> simp [hf', Env.poke, drawn_append, d2, d3]
  cases bf with
  | true => simpa using second f env rfl _ _ rfl rfl
  | false =>
    obtain ⟨v, hv⟩ := h1 f.st env.w
    rcases hr : f.run f.st [] env.w with ⟨r, s, w⟩
    rw [hr] at hv
    simp only at hv
    subst hv
    have := second ⟨f.toFnCode, s⟩ ⟨w, env.log ++ [.call .fn f.id [] f.st s]⟩ rfl _ _ (by simp only [drawn_append, d1]; rfl) (by simp only [drawn_append, d4]; rfl)
    simpa [Flags.visit, UFn.invoke, hr] using this

omit [CxxData D] in
theorem visits_counts (fixed : Bool) (l : List (Bool × (W → W))) : ∀ (s : Flags D W E S) (env : Env D W S), s.opengl.id ≠ s.opencl.id →
    (∀ st w, ∃ v, (s.opengl.run st [] w).1 = .ok v) → (∀ st w, ∃ v, (s.opencl.run st [] w).1 = .ok v) →
    let r := s.visits fixed env l
    drawn s.opengl.id r.2.2.log = drawn s.opengl.id env.log + (if s.isOpengl || l.isEmpty then 0 else 1) ∧
    drawn s.opencl.id r.2.2.log = drawn s.opencl.id env.log + (if s.isOpencl then 0 else
      if fixed then (if l.isEmpty then 0 else 1) else (l.takeWhile (·.1)).length + if l.all (·.1) then 0 else 1) := by
  induction l with
  | nil => intro s env _ _ _; simp [Flags.visits]
  | cons x l ih =>
    obtain ⟨elsewhere, rest⟩ := x
    intro s env hid h1 h2
    obtain ⟨k1, k2, k3, k4, k5, k6, k7⟩ := visit_counts fixed elsewhere rest s env hid h1 h2
    have := ih (s.visit fixed elsewhere rest env).2.1 (s.visit fixed elsewhere rest env).2.2 (by rw [k2, k3]; exact hid) (by rw [k2]; exact h1)
      (by rw [k3]; exact h2)
    rw [k2, k3, k4, k5, k6, k7] at this
    simp only [Flags.visits]
    refine ⟨by rw [this.1]; simp, ?_⟩
    rw [this.2]
    cases s.isOpencl <;> cases fixed <;> cases elsewhere <;> simp only [List.isEmpty_cons, List.takeWhile_cons, List.all_cons, Bool.or_true, Bool.or_false, Bool.not_true, Bool.not_false, Bool.true_and, Bool.false_and, if_true, if_false, Bool.false_eq_true, List.length_cons, List.length_nil] <;> omega

/-- The pinned code: nothing is kept, and the result is dangling, even that of `regular_void`. -/
theorem pinned_call (f : UFn D W E S) (env : Env D W S) (v : Val D) (hv : (f.run f.st [] env.w).1 = .ok v) :
    call0 .asWritten (simpleLazy f).obj env = (.ub, (simpleLazy f).obj,
      ⟨(f.run f.st [] env.w).2.2, env.log ++ [.call .fn f.id [] f.st (f.run f.st [] env.w).2.1]⟩) := by
  rcases hr : f.run f.st [] env.w with ⟨r, s, w⟩
  rw [hr] at hv
  simp only at hv
  subst hv
  have hd : evalDeps (E := E) .asWritten [] env = (.ok [], [], env) := by simp [evalDeps]
  have hc : Fun.call .asWritten (.regularized f) [] env = (.ok (f.ret.regularize v), .regularized f, ⟨w, env.log ++ [.call .fn f.id [] f.st s]⟩) := by
    simp [Fun.call, UFn.invoke, hr, Glue.asWritten, keep]
  have hval : f.ret = .val → call0 .asWritten (Simple.cached f none).obj env = (.ub, (Simple.cached f none).obj, ⟨w, env.log ++ [.call .fn f.id [] f.st s]⟩) := by
    intro ht
    have hf : (Cache.opt none : Cache D).Fits f.ret := ht
    simp only [Simple.obj]
    rw [call0_facade, evalN_core_ok .asWritten _ _ _ _ hd, coreTail_run .asWritten _ _ _ _ env _ [] f.ret v (by rfl) rfl hc hf]
    simp [Glue.asWritten, Glue.coreLive, cmpEvents, keep]
  have hrv : f.ret ≠ .val → call0 .asWritten (Simple.once f false).obj env = (.ub, (Simple.once f false).obj, ⟨w, env.log ++ [.call .fn f.id [] f.st s]⟩) := by
    intro ht
    have hf : (Cache.rv ⟨false⟩ : Cache D).Fits f.ret := ht
    simp only [Simple.obj]
    rw [call0_facade, evalN_core_ok .asWritten _ _ _ _ hd, coreTail_run .asWritten _ _ _ _ env _ [] f.ret v (by rfl) rfl hc hf]
    simp [Glue.asWritten, Glue.coreLive, cmpEvents, keep]
  cases ht : f.ret with
  | val => simpa [simpleLazy, ht] using hval ht
  | void => simpa [simpleLazy, ht] using hrv (by simp [ht])
  | rvoid => simpa [simpleLazy, ht] using hrv (by simp [ht])

end Pigro
