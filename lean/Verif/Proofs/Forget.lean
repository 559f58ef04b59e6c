import Verif.Spec.Forget
import Verif.Proofs.Remember
/-!
# Proof: lazy functions handed over by copy are evaluated anew (C96)
-/
namespace Pigro.Fgt
open Rem
variable {D W E S : Type}

/-- Results are values, and what the calls leave behind is lost: the facade is called through a copy, or the closure and what it calls are copies. -/
def Forgets (g : Glue) : Prop :=
  g.resultByRef = false ∧ (g.facadeParamByValue = true ∨ g.unwrapParamByValue = true ∨ (g.bindFrontCopies = true ∧ (g.coreParamsByValue = true ∨ (g.regParamByValue = true ∧ g.wrapParamByValue = true))))

section
variable [CxxData D]

mutual
/-- The object when it is made. -/
def Expr.obj : Expr D W E S → Obj D W E S
  | .value v => .lazyValue v false
  | .function u => detailLazy (.wrapDep u) [.lazyValue (.data CxxData.zero) true]
  | .app u deps => .unregularized (.unwrapped (detailLazy (.regularized u) (Expr.objs deps)))
/-- The objects. -/
def Expr.objs : List (Expr D W E S) → List (Obj D W E S)
  | [] => []
  | e :: es => e.obj :: Expr.objs es
end

omit [CxxData D] in
theorem keep_true {α : Type} (a b : α) : keep true a b = a := rfl

omit [CxxData D] in
theorem keep_self {α : Type} (b : Bool) (a : α) : keep b a a = a := by cases b <;> rfl

omit [CxxData D] in
/-- The function when it comes back from its call. -/
theorem call_same (g : Glue) (h : g.regParamByValue = true ∧ g.wrapParamByValue = true) (f : Fun D W E S) (args : List (Val D)) (env : Env D W S) : (f.call g args env).2.1 = f := by
  rcases f with u | u
  · simp only [Fun.call, h.1, keep_true]
    rcases u.invoke .fn args env with ⟨_ | _, _, _⟩ <;> rfl
  · simp only [Fun.call, h.2, keep_true]
    rcases u.invoke .dep [] env with ⟨_ | _, _, _⟩ <;> rfl

theorem tail_fun (g : Glue) (h : g.regParamByValue = true ∧ g.wrapParamByValue = true) (f : Fun D W E S) (cache : Cache D) (rs : List (LazyRes D)) (env : Env D W S) : (coreTail g f cache rs env).2.1 = f := by
  rw [coreTail]
  simp only
  split
  · split
    · rfl
    · rename_i args _
      have := call_same g h f args env
      rcases hc : f.call g args env with ⟨o, f', env'⟩
      rw [hc] at this
      simp only at this
      subst this
      rcases o with v | e | _ | _
      · simp only
        split <;> rfl
      all_goals rfl
  · split <;> rfl

mutual
/-- Nothing changes if the closure and what it calls are copies. -/
theorem evalN_same (g : Glue) (hb : g.bindFrontCopies = true) (h : g.coreParamsByValue = true ∨ (g.regParamByValue = true ∧ g.wrapParamByValue = true)) :
    ∀ (o : Obj D W E S) (env : Env D W S), (evalN g o env).2.1 = o
  | .lazyValue v c, env => by rw [evalN]
  | .core f cache deps, env => by
    have hd := evalDeps_same g hb h deps env
    rcases hq : evalDeps g deps env with ⟨q, ds', env1⟩
    rw [hq] at hd
    simp only at hd
    subst hd
    rw [evalN, hq]
    rcases q with rs | e | _ | _
    · simp only [hb, keep_true, keep_self]
      rcases h with h | h
      · simp only [h, keep_true]
      · rw [tail_fun g h, keep_self]
    all_goals simp only [keep_self]
  | .unwrapped inner, env => by
    have := evalN_same g hb h inner env
    simp only [evalN, this, keep_self]
  | .unregularized inner, env => by
    have := evalN_same g hb h inner env
    simp only [evalN, this, keep_self]
theorem evalDeps_same (g : Glue) (hb : g.bindFrontCopies = true) (h : g.coreParamsByValue = true ∨ (g.regParamByValue = true ∧ g.wrapParamByValue = true)) :
    ∀ (os : List (Obj D W E S)) (env : Env D W S), (evalDeps g os env).2.1 = os
  | [], env => by rw [evalDeps]
  | o :: os, env => by
    have h1 := evalN_same g hb h o env
    rw [evalDeps]
    rcases hq : evalN g o env with ⟨q, o', env1⟩
    rw [hq] at h1
    simp only at h1
    subst h1
    rcases q with r | e | _ | _
    · have h2 := evalDeps_same g hb h os env1
      simp only [h2]
    all_goals rfl
end

/-- A lazy function is afterwards what it was. -/
theorem forgets_same (g : Glue) (hg : Forgets g) (o : Obj D W E S) (env : Env D W S) :
    (evalN g (.unregularized (.unwrapped o)) env).2.1 = .unregularized (.unwrapped o) ∧ (call0 g (.unregularized (.unwrapped o)) env).2.1 = .unregularized (.unwrapped o) := by
  obtain ⟨hr, h⟩ := hg
  have h0 : (evalN g (.unregularized (.unwrapped o)) env).2.1 = .unregularized (.unwrapped o) := by
    rcases h with h | h | ⟨h1, h2⟩
    · simp only [evalN, h, keep_true]
    · simp only [evalN, h, keep_true, keep_self]
    · exact evalN_same g h1 h2 _ env
  refine ⟨h0, ?_⟩
  simp only [call0]
  simp only [evalN] at h0 ⊢
  rcases hq : evalN g o env with ⟨q, o', env'⟩
  rw [hq] at h0
  rcases q with r | e | _ | _ <;> exact h0

/-! ### Values -/

/-- Does the value count as changed? -/
def Expr.anew : Expr D W E S → Bool
  | .value _ => false
  | _ => true

/-- Evaluating the expression and the new object come to the same. -/
structure Same1 (anew : Bool) (r : Except E (Val D) × World D W) (q : Out E (LazyRes D) × Obj D W E S × Env D W S) : Prop where
  ok : ∀ v, r.1 = .ok v → q.1 = .ok ⟨v, anew, true⟩
  error : ∀ e, r.1 = .error e → q.1 = .thrown e
  view : r.2 = view q.2.2

/-- The same for several. -/
structure SameL (r : Except E (List (Val D)) × World D W) (q : Out E (List (LazyRes D)) × List (Obj D W E S) × Env D W S) : Prop where
  ok : ∀ vs, r.1 = .ok vs → ∃ rs, q.1 = .ok rs ∧ rs.map (·.value) = vs ∧ rs.all (·.live) = true
  error : ∀ e, r.1 = .error e → q.1 = .thrown e
  view : r.2 = view q.2.2

omit [CxxData D] in
theorem view_run (u : UFn D W E S) (k : Kind) (args : List (Val D)) (env : Env D W S) : (apply u args (view env)).2.2 = view (u.invoke k args env).2.2 := by
  have := view_invoke u k args env [] rfl
  simpa using this

/-- The end of a first call. -/
theorem tail_first (g : Glue) (hr : g.resultByRef = false) (f : Fun D W E S) (k : Kind) (u : UFn D W E S) (hret : f.ret = u.ret) (rs : List (LazyRes D)) (env : Env D W S)
    (args args' : List (Val D)) (ha : readValues rs = some args)
    (hc : (f.call g args env).1 = (match (u.invoke k args' env).1 with
      | .ok v => .ok (u.ret.regularize v)
      | .error e => .thrown e) ∧ (f.call g args env).2.2 = (u.invoke k args' env).2.2) :
    (∀ v, (apply u args' (view env)).1 = .ok v → (coreTail g f (Cache.empty f.ret) rs env).1 = .ok ⟨v, true, true⟩) ∧
    (∀ e, (apply u args' (view env)).1 = .error e → (coreTail g f (Cache.empty f.ret) rs env).1 = .thrown e) ∧
    (apply u args' (view env)).2.2 = view (coreTail g f (Cache.empty f.ret) rs env).2.2.2 := by
  obtain ⟨c1, c2⟩ := hc
  have hlive : ∀ c : Cache D, g.coreLive c = true := fun c => by cases c <;> simp [Glue.coreLive, hr]
  have hfire : (!(Cache.empty f.ret : Cache D).engaged || any LazyRes.isChanged rs) = true := by
    rw [Cache.engaged_val?, Cache.empty_val?]; rfl
  rcases hf : f.call g args env with ⟨o, f', env'⟩
  rw [hf] at c1 c2
  simp only at c1 c2
  subst c2
  rcases hx : (u.run u.st args' env.w).1 with e | v
  · have : o = .thrown e := by rw [c1]; simp [UFn.invoke, hx]
    subst this
    have ht : coreTail g f (Cache.empty f.ret) rs env = (.thrown e, f', Cache.empty f.ret, (u.invoke k args' env).2.2) := by
      simp only [coreTail, hfire, if_true, ha, hf, Out.map]
    rw [ht]
    refine ⟨fun v hv => ?_, fun e' he => ?_, view_run u k args' env⟩
    · simp [apply, view, hx, Except.map] at hv
    · have : e' = e := by simpa [apply, view, hx, Except.map, eq_comm] using he
      rw [this]
  · have : o = .ok (u.ret.regularize v) := by rw [c1]; simp [UFn.invoke, hx]
    subst this
    have hfit : (Cache.empty f.ret : Cache D).Fits u.ret := by rw [← hret]; exact Cache.empty_fits _
    rw [coreTail_run g f f' _ rs env _ args u.ret v hfire ha hf hfit, hlive]
    refine ⟨fun v' hv => ?_, fun e' he => ?_, view_invoke u k args' env _ (ran_cmpEvents _ _)⟩
    · have : v' = u.ret.regularize v := by simpa [apply, view, hx, Except.map, eq_comm] using hv
      subst this
      rw [Cache.ne_val? hfit, Cache.empty_val?]
    · simp [apply, view, hx, Except.map] at he

mutual
theorem eval_same (g : Glue) (hr : g.resultByRef = false) : ∀ (e : Expr D W E S) (env : Env D W S), Same1 e.anew (eval e (view env)) (evalN g e.obj env)
  | .value v, env => by
    rw [eval, Expr.obj, evalN]
    refine ⟨fun v' hv => ?_, fun e he => (by cases he), rfl⟩
    cases hv
    simp [hr, Expr.anew]
  | .function u, env => by
    have hd : evalDeps g [(.lazyValue (.data CxxData.zero) true : Obj D W E S)] env = (.ok [⟨.data CxxData.zero, true, true⟩], [.lazyValue (.data CxxData.zero) true], env) := by
      simp [evalDeps, evalN, hr, Out.map]
    rw [Expr.obj, detailLazy, evalN_core_ok g _ _ _ _ hd, eval]
    obtain ⟨h1, h2, h3⟩ := tail_first g hr (.wrapDep u) .dep u rfl [⟨.data CxxData.zero, true, true⟩] env [.data CxxData.zero] [] (by simp [readValues, transform_eq, tupleCTAD, Val.asTuple])
      (by simp only [Fun.call]; rcases u.invoke .dep [] env with ⟨_ | _, _, _⟩ <;> exact ⟨rfl, rfl⟩)
    exact ⟨h1, h2, h3⟩
  | .app u deps, env => by
    have hL := evalAll_same g hr deps env
    have hthru : ∀ q : Out E (LazyRes D), q.map (LazyRes.through false) = q := by
      intro q; cases q <;> simp [Out.map, LazyRes.through]
    rw [Expr.obj, detailLazy, evalN_facade, hr, Bool.false_and, hthru, eval]
    rcases hs : evalAll deps (view env) with ⟨r, s'⟩
    rcases hq : evalDeps g (Expr.objs deps) env with ⟨q, ds', env1⟩
    rw [hs, hq] at hL
    rcases r with e | vs
    · have l1 := hL.error e rfl
      simp only at l1
      subst l1
      rw [evalN_core_fail g _ _ _ env hq rfl]
      refine ⟨fun v hv => (by cases hv), fun e' he => ?_, hL.view⟩
      cases he; rfl
    · obtain ⟨rs, l1, l2, l4⟩ := hL.ok vs rfl
      simp only at l1
      subst l1
      have hs' : s' = view env1 := hL.view
      subst hs'
      rw [evalN_core_ok g _ _ _ env hq]
      have ha : readValues rs = some (spread vs) := by
        rw [readValues, l4, if_pos rfl, transform_eq, ← spread_eq, ← l2]
      obtain ⟨h1, h2, h3⟩ := tail_first g hr (.regularized u) .fn u rfl rs env1 (spread vs) (spread vs) ha
        (by simp only [Fun.call]; rcases u.invoke .fn (spread vs) env1 with ⟨_ | _, _, _⟩ <;> exact ⟨rfl, rfl⟩)
      exact ⟨h1, h2, h3⟩
theorem evalAll_same (g : Glue) (hr : g.resultByRef = false) : ∀ (es : List (Expr D W E S)) (env : Env D W S), SameL (evalAll es (view env)) (evalDeps g (Expr.objs es) env)
  | [], env => by
    rw [evalAll, Expr.objs, evalDeps]
    refine ⟨fun vs hv => ?_, fun e he => (by cases he), rfl⟩
    cases hv
    exact ⟨[], rfl, rfl, rfl⟩
  | n :: ns, env => by
    have hS := eval_same g hr n env
    rw [evalAll, Expr.objs, evalDeps]
    rcases hs : eval n (view env) with ⟨r, s'⟩
    rcases hq : evalN g n.obj env with ⟨q, o', env1⟩
    rw [hs, hq] at hS
    rcases r with e | v
    · have l1 := hS.error e rfl
      simp only at l1
      subst l1
      refine ⟨fun v hv => (by cases hv), fun e' he => ?_, hS.view⟩
      cases he
      rfl
    · have l1 := hS.ok v rfl
      simp only at l1
      subst l1
      have hv : s' = view env1 := hS.view
      subst hv
      have hL := evalAll_same g hr ns env1
      simp only
      rcases hs2 : evalAll ns (view env1) with ⟨r2, s2⟩
      rcases hq2 : evalDeps g (Expr.objs ns) env1 with ⟨q2, os2, env2⟩
      rw [hs2, hq2] at hL
      refine ⟨fun vs hvs => ?_, fun e' he => ?_, hL.view⟩
      · rcases r2 with e2 | vs2
        · cases hvs
        · cases hvs
          obtain ⟨rs, m1, m2, m4⟩ := hL.ok vs2 rfl
          simp only at m1
          subst m1
          exact ⟨_, rfl, by simp [m2], by simp [m4]⟩
      · rcases r2 with e2 | vs2
        · cases he
          have m1 := hL.error e' rfl
          simp only at m1
          subst m1
          rfl
        · cases he
end

/-! ### Programs -/

theorem objs_eq (es : List (Expr D W E S)) : Expr.objs es = es.map Expr.obj := by
  induction es with
  | nil => rfl
  | cons e es ih => rw [Expr.objs, ih, List.map_cons]

/-- A lazy function. -/
def Expr.IsApp (n : Expr D W E S) : Prop := ∃ u deps, n = .app u deps

/-- A call without argument. -/
theorem call0_same (g : Glue) (hr : g.resultByRef = false) (u : UFn D W E S) (deps : List (Expr D W E S)) (env : Env D W S) :
    (call0 g (Expr.app u deps).obj env).2.2 = (evalN g (Expr.app u deps).obj env).2.2 ∧
    (∀ v b, (evalN g (Expr.app u deps).obj env).1 = .ok ⟨v, b, true⟩ → (call0 g (Expr.app u deps).obj env).1 = .ok ((Expr.app u deps).shown v)) ∧
    (∀ e, (evalN g (Expr.app u deps).obj env).1 = .thrown e → (call0 g (Expr.app u deps).obj env).1 = .thrown e) := by
  have hthru : ∀ q : Out E (LazyRes D), q.map (LazyRes.through false) = q := by
    intro q; cases q <;> simp [Out.map, LazyRes.through]
  have hrv : ∀ v, (if (Obj.unwrapped (detailLazy (.regularized u) (Expr.objs deps)) : Obj D W E S).valueIsRV = true then none else some v) = (Expr.app u deps).shown v := by
    intro v
    rcases u with ⟨⟨id, ret, f⟩, st⟩
    cases ret <;> rfl
  rw [Expr.obj, evalN_facade, hr, Bool.false_and, hthru, call0, call0, evalN_unwrapped, hr, Bool.false_and, hthru]
  rcases hx : evalN g (detailLazy (.regularized u) (Expr.objs deps)) env with ⟨r | e | _ | _, o', env'⟩
  · refine ⟨rfl, fun v b hv => ?_, fun e he => (by cases he)⟩
    simp only [Out.ok.injEq] at hv
    subst hv
    simp only [if_true, Out.map]
    exact congrArg Out.ok (hrv v)
  · refine ⟨rfl, fun v b hv => (by cases hv), fun e' he => ?_⟩
    cases he; rfl
  · exact ⟨rfl, fun v b hv => (by cases hv), fun e he => (by cases he)⟩
  · exact ⟨rfl, fun v b hv => (by cases hv), fun e he => (by cases he)⟩

/-- Making a dependency. -/
theorem dependency_same {ns : List (Expr D W E S)} (hl : ∀ n ∈ ns, n.IsApp) (a : ArgRef D W E S) : (a.resolve (ns.map Expr.obj)).bind ensureLazy = (dependency ns a).map Expr.obj := by
  rcases a with v | u | i
  · rfl
  · by_cases hu : u.ret = .void
    · simp [dependency, ArgRef.resolve, ensureLazy, DepArg.caps, ensureSelect, ensureViable, moreConstrained, hu]
    · simp [dependency, ArgRef.resolve, ensureLazy, DepArg.caps, ensureSelect, ensureViable, moreConstrained, hu, Expr.obj]
  · simp only [ArgRef.resolve, dependency, List.getElem?_map]
    rcases h1 : ns[i]? with _ | n
    · rfl
    · obtain ⟨u, deps, rfl⟩ := hl n (List.mem_of_getElem? h1)
      simp [ensureLazy, DepArg.caps, Obj.caps, ensureSelect, ensureViable, moreConstrained, Expr.obj]

theorem dependencies_same {ns : List (Expr D W E S)} (hl : ∀ n ∈ ns, n.IsApp) : ∀ as : List (ArgRef D W E S),
    (resolveAll (ns.map Expr.obj) as).bind ensureAll = (dependencies ns as).map Expr.objs
  | [] => rfl
  | a :: as => by
    have h1 := dependency_same hl a
    have h2 := dependencies_same hl as
    rw [dependencies, resolveAll]
    rcases hra : a.resolve (ns.map Expr.obj) with _ | d
    · rw [hra] at h1
      rcases hd : dependency ns a with _ | n
      · rfl
      · rw [hd] at h1; cases h1
    · rw [hra] at h1
      rcases hras : resolveAll (ns.map Expr.obj) as with _ | ds
      · rw [hras] at h2
        rcases hd : dependencies ns as with _ | ms
        · rcases dependency ns a with _ | _ <;> rfl
        · rw [hd] at h2; cases h2
      · rw [hras] at h2
        simp only [Option.bind_some] at h1 h2 ⊢
        rw [ensureAll, h1, h2]
        rcases dependency ns a with _ | _ <;> rcases dependencies ns as with _ | _ <;> rfl

/-- States correspond. -/
structure SameS (s : List (Expr D W E S) × World D W) (t : State D W E S) : Prop where
  vars : t.vars = s.1.map Expr.obj
  app : ∀ n ∈ s.1, n.IsApp
  view : s.2 = view t.env

theorem step_same (g : Glue) (hg : Forgets g) (s : List (Expr D W E S) × World D W) (t : State D W E S) (h : SameS s t) (op : Op D W E S) :
    answer (Pigro.step g t op).1 = some (step s op).1 ∧ SameS (step s op).2 (Pigro.step g t op).2 := by
  obtain ⟨vars, w⟩ := s
  obtain ⟨tv, te⟩ := t
  obtain ⟨hrel, happ, hview⟩ := h
  simp only at hrel happ hview
  subst hrel hview
  have hset : ∀ (i : Nat) (n : Expr D W E S), vars[i]? = some n → (vars.map Expr.obj).set i n.obj = vars.map Expr.obj := by
    intro i n hn
    rw [← List.map_set]
    congr 1
    obtain ⟨hi, rfl⟩ := List.getElem?_eq_some_iff.1 hn
    exact List.set_getElem_self hi
  have hget : ∀ (i : Nat) (n : Expr D W E S), vars[i]? = some n → (vars.map Expr.obj)[i]? = some n.obj := by
    intro i n hn; simp [hn]
  cases op with
  | mk f deps =>
    have hd := dependencies_same happ deps
    have : (resolveAll (vars.map Expr.obj) deps).bind (pigroLazy f) = (dependencies vars deps).map fun ds => (Expr.app f ds).obj := by
      rcases hr : resolveAll (vars.map Expr.obj) deps with _ | rs
      · rw [hr] at hd
        rcases hm : dependencies vars deps with _ | ms
        · rfl
        · rw [hm] at hd; cases hd
      · rw [hr] at hd
        simp only [Option.bind_some] at hd ⊢
        rw [pigroLazy, hd]
        rcases dependencies vars deps with _ | ms <;> rfl
    simp only [step, Pigro.step, this]
    rcases dependencies vars deps with _ | ms
    · exact ⟨rfl, rfl, happ, rfl⟩
    · refine ⟨rfl, by simp, ?_, rfl⟩
      intro n hn
      rcases List.mem_append.1 hn with hn | hn
      · exact happ n hn
      · simp only [List.mem_singleton] at hn; exact ⟨_, _, hn⟩
  | copy i =>
    simp only [step, Pigro.step]
    rcases h1 : vars[i]? with _ | n
    · simp only [List.getElem?_map, h1, Option.map_none]; exact ⟨rfl, rfl, happ, rfl⟩
    · simp only [List.getElem?_map, h1, Option.map_some]
      refine ⟨rfl, by simp, ?_, rfl⟩
      intro m hm
      rcases List.mem_append.1 hm with hm | hm
      · exact happ m hm
      · simp only [List.mem_singleton] at hm; subst hm; exact happ m (List.mem_of_getElem? h1)
  | call i =>
    rcases h1 : vars[i]? with _ | n
    · simp only [step, Pigro.step, List.getElem?_map, h1, Option.map_none]; exact ⟨rfl, rfl, happ, rfl⟩
    · have hS := eval_same g hg.1 n te
      obtain ⟨u, ds, rfl⟩ := happ n (List.mem_of_getElem? h1)
      obtain ⟨c1, c2, c3⟩ := call0_same g hg.1 u ds te
      have hsame := (forgets_same g hg (detailLazy (.regularized u) (Expr.objs ds)) te).2
      rw [step_call g _ i _ (hget i _ h1)]
      simp only [step, h1]
      refine ⟨?_, ?_, happ, ?_⟩
      · rcases he : (eval (Expr.app u ds) (Rem.view te)).1 with e | v
        · rw [c3 e (hS.error e he)]; rfl
        · rw [c2 v _ (hS.ok v he)]; rfl
      · simp only
        rw [Expr.obj, hsame]
        exact hset i _ h1
      · simp only; rw [c1]; exact hS.view
  | poll i =>
    rcases h1 : vars[i]? with _ | n
    · simp only [step, Pigro.step, List.getElem?_map, h1, Option.map_none]; exact ⟨rfl, rfl, happ, rfl⟩
    · have hS := eval_same g hg.1 n te
      obtain ⟨u, ds, rfl⟩ := happ n (List.mem_of_getElem? h1)
      have hsame := (forgets_same g hg (detailLazy (.regularized u) (Expr.objs ds)) te).1
      rw [step_poll g _ i _ (hget i _ h1)]
      simp only [step, h1]
      refine ⟨?_, ?_, happ, hS.view⟩
      · rcases he : (eval (Expr.app u ds) (Rem.view te)).1 with e | v
        · rw [hS.error e he]; rfl
        · rw [hS.ok v he]; rfl
      · simp only
        rw [Expr.obj, hsame]
        exact hset i _ h1
  | poke f => exact ⟨rfl, rfl, happ, rfl⟩

theorem run_same (g : Glue) (hg : Forgets g) : ∀ (ops : List (Op D W E S)) (s : List (Expr D W E S) × World D W) (t : State D W E S), SameS s t →
    (Pigro.run g t ops).1.map answer = (run s ops).1.map some ∧ SameS (run s ops).2 (Pigro.run g t ops).2
  | [], s, t, h => ⟨rfl, h⟩
  | op :: ops, s, t, h => by
    obtain ⟨h1, h2⟩ := step_same g hg s t h op
    obtain ⟨h3, h4⟩ := run_same g hg ops _ _ h2
    exact ⟨by simp only [Pigro.run, run, List.map_cons, h1, h3], h4⟩

end
end Pigro.Fgt
