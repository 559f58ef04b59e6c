import Verif.Proofs.Fresh
/-!
# Freshness over histories
-/
namespace Pigro
variable {D W E S O : Type} [CxxData D]

omit [CxxData D] in
theorem stepTrees_prefix (ts : List (Tree D W E S)) (op : Op D W E S) : ts <+: stepTrees ts op := by
  cases op with
  | mk f deps => simp only [stepTrees]; split <;> simp
  | copy i => simp only [stepTrees]; split <;> simp
  | _ => simp [stepTrees]

omit [CxxData D] in
theorem runTrees_prefix (ops : List (Op D W E S)) : ∀ ts : List (Tree D W E S),
    ts <+: runTrees ts ops := by
  induction ops with
  | nil => intro ts; exact List.prefix_rfl
  | cons op ops ih => intro ts; exact (stepTrees_prefix ts op).trans (ih _)

omit [CxxData D] in
theorem runTrees_append (ts : List (Tree D W E S)) (a b : List (Op D W E S)) :
    runTrees ts (a ++ b) = runTrees (runTrees ts a) b := by
  simp [runTrees, List.foldl_append]

theorem run_append (g : Glue) (a b : List (Op D W E S)) : ∀ s : State D W E S,
    run g s (a ++ b) = ((run g s a).1 ++ (run g (run g s a).2 b).1, (run g (run g s a).2 b).2) := by
  induction a with
  | nil => intro s; rfl
  | cons op a ih => intro s; simp [run, ih]

/-! ### Pristine objects: nothing cached -/
mutual
/-- No cache inside the object is engaged. -/
def Obj.Pristine : Obj D W E S → Prop
  | .lazyValue _ _ => True
  | .core _ cache deps => cache.val? = none ∧ Obj.PristineL deps
  | .unwrapped i => i.Pristine
  | .unregularized i => i.Pristine
/-- Element-wise. -/
def Obj.PristineL : List (Obj D W E S) → Prop
  | [] => True
  | d :: ds => d.Pristine ∧ Obj.PristineL ds
end

omit [CxxData D] in
theorem Cache.empty_val? (r : RetTy) : (Cache.empty r : Cache D).val? = none := by
  cases r <;> rfl

mutual
theorem Pristine.cons (m : Meaning D W E S O) (t : Tree D W E S) (o : Obj D W E S)
    (h : Shape t o) (hp : o.Pristine) : Cons m t o := by
  match t with
  | .value v => simp [Cons]
  | .function c => simp [Cons]
  | .lazy c ts =>
    simp only [Shape] at h
    obtain ⟨u, cache, ds, rfl, hf, hds, rfl⟩ := h
    simp only [Obj.Pristine] at hp
    simp only [Cons]
    refine ⟨_, _, _, rfl, ?_, PristineL.cons m ts ds hds hp.2⟩
    intro v hv; rw [hp.1] at hv; cases hv
theorem PristineL.cons (m : Meaning D W E S O) (ts : List (Tree D W E S)) (ds : List (Obj D W E S))
    (h : ShapeL ts ds) (hp : Obj.PristineL ds) : ConsL m ts ds := by
  match ts with
  | [] => simp [ConsL]
  | t :: ts =>
    simp only [ShapeL] at h
    obtain ⟨d, ds', hd, hds, rfl⟩ := h
    simp only [Obj.PristineL] at hp
    simp only [ConsL]
    exact ⟨d, ds', rfl, Pristine.cons m t d hd hp.1, PristineL.cons m ts ds' hds hp.2⟩
end

mutual
theorem evalN_pristine (g : Glue) (ha : g.bindFrontCopies = true) (o : Obj D W E S)
    (env : Env D W S) (hp : o.Pristine) : (evalN g o env).2.1.Pristine := by
  match o with
  | .lazyValue v c => simp [evalN, Obj.Pristine]
  | .core f cache deps =>
    simp only [Obj.Pristine] at hp
    have hd := evalDeps_pristine g ha deps env hp.2
    obtain ⟨rs, env1, h1 | h1⟩ := evalN_core_obj g f cache deps env
    · rw [h1]; simp only [Obj.Pristine]
      exact ⟨hp.1, keep_ind _ hp.2 hd⟩
    · rw [h1]; simp only [Obj.Pristine, ha, keep_true]
      exact ⟨hp.1, keep_ind _ hp.2 hd⟩
  | .unwrapped i =>
    rw [evalN_unwrapped]
    simp only [Obj.Pristine] at hp ⊢
    exact keep_ind _ hp (evalN_pristine g ha i env hp)
  | .unregularized i =>
    rw [evalN_unregularized]
    simp only [Obj.Pristine] at hp ⊢
    exact keep_ind _ hp (evalN_pristine g ha i env hp)
theorem evalDeps_pristine (g : Glue) (ha : g.bindFrontCopies = true) (ds : List (Obj D W E S))
    (env : Env D W S) (hp : Obj.PristineL ds) : Obj.PristineL (evalDeps g ds env).2.1 := by
  match ds with
  | [] => simp [evalDeps, Obj.PristineL]
  | d :: ds =>
    simp only [Obj.PristineL] at hp
    have h1 := evalN_pristine g ha d env hp.1
    rcases he : evalN g d env with ⟨o, d', env1⟩
    rw [he] at h1
    rw [evalDeps, he]
    cases o with
    | ok r =>
      simp only [Obj.PristineL]
      exact ⟨h1, evalDeps_pristine g ha ds env1 hp.2⟩
    | _ => simp only [Obj.PristineL]; exact ⟨h1, hp.2⟩
end

theorem facade_pristine (g : Glue) (hg : g.Drops) (i : Obj D W E S) (env : Env D W S)
    (hp : i.Pristine) :
    (keep (g.facadeParamByValue || g.unwrapParamByValue) i (evalN g i env).2.1).Pristine := by
  rcases hg with h | h | h
  · exact keep_ind _ hp (evalN_pristine g h i env hp)
  · simpa [h] using hp
  · simpa [h] using hp

/-! ### Variables are consistent in every history -/

/-- Element-wise relation on variables. -/
def AllVars (P : Tree D W E S → Obj D W E S → Prop) (ts : List (Tree D W E S))
    (vars : List (Obj D W E S)) : Prop :=
  ∀ (i : Nat) t o, ts[i]? = some t → vars[i]? = some o → P t o

omit [CxxData D] in
theorem AllVars.append {P : Tree D W E S → Obj D W E S → Prop} {ts : List (Tree D W E S)}
    {vars : List (Obj D W E S)} (h : AllVars P ts vars) (hl : ts.length = vars.length)
    {t : Tree D W E S} {o : Obj D W E S} (ho : P t o) : AllVars P (ts ++ [t]) (vars ++ [o]) := by
  intro i t' o' ht ho'
  rw [List.getElem?_append] at ht ho'
  rw [← hl] at ho'
  split at ht
  · rename_i hi
    rw [if_pos hi] at ho'
    exact h i t' o' ht ho'
  · rename_i hi
    rw [if_neg hi] at ho'
    rcases Nat.eq_zero_or_pos (i - ts.length) with h0 | h0
    · simp only [h0, List.getElem?_cons_zero, Option.some.injEq] at ht ho'
      rw [← ht, ← ho']; exact ho
    · rw [List.getElem?_eq_none (by simp; omega)] at ht; cases ht

omit [CxxData D] in
theorem AllVars.set {P : Tree D W E S → Obj D W E S → Prop} {ts : List (Tree D W E S)}
    {vars : List (Obj D W E S)} (h : AllVars P ts vars) {i : Nat} {o : Obj D W E S}
    (ho : ∀ t, ts[i]? = some t → P t o) : AllVars P ts (vars.set i o) := by
  intro j t' o' ht ho'
  rw [List.getElem?_set] at ho'
  split at ho'
  · subst_vars
    split at ho'
    · simp only [Option.some.injEq] at ho'; subst ho'; exact ho t' ht
    · cases ho'
  · exact h j t' o' ht ho'

/-- A predicate on (tree, object) that construction establishes from its dependencies. -/
structure Built (P : Tree D W E S → Obj D W E S → Prop) : Prop where
  value : ∀ v, P (.value v) (.lazyValue v false)
  function : ∀ u : UFn D W E S, u.ret ≠ .void → P (.function u.toFnCode)
    (detailLazy (.wrapDep u) [.lazyValue (.data CxxData.zero) true])
  lazy : ∀ (f : UFn D W E S) us os, us.length = os.length →
    (∀ p ∈ us.zip os, P p.1 p.2) → ShapeL us os →
    P (.lazy f.toFnCode us) (.unregularized (.unwrapped (detailLazy (.regularized f) os)))

theorem args_built_of {P : Tree D W E S → Obj D W E S → Prop} (hb : Built P)
    {ts : List (Tree D W E S)} {vars : List (Obj D W E S)} (h : ShapeL ts vars)
    (hz : ∀ t ∈ ts, ∃ c us, t = .lazy c us) (as : List (ArgRef D W E S))
    (hP : ∀ (i : Nat) t o, .var i ∈ as → ts[i]? = some t → vars[i]? = some o → P t o) : ∀ us os, argTrees ts as = some us →
      (resolveAll vars as).bind ensureAll = some os → ∀ p ∈ us.zip os, P p.1 p.2 := by
  induction as with
  | nil => intro us os h1 h2; simp [argTrees] at h1; subst h1; simp
  | cons a as ih =>
    intro us os h1 h2
    rw [argTrees] at h1
    rcases ha : a.tree ts with _ | t
    · simp [ha] at h1
    rcases hb' : argTrees ts as with _ | us'
    · simp [ha, hb'] at h1
    simp only [ha, hb', Option.some.injEq] at h1
    subst h1
    rw [resolveAll] at h2
    rcases hr : a.resolve vars with _ | d
    · simp [hr] at h2
    rcases hr2 : resolveAll vars as with _ | dd
    · simp [hr, hr2] at h2
    simp only [hr, hr2, Option.bind_some, ensureAll] at h2
    rcases he : ensureLazy d with _ | o
    · simp [he] at h2
    rcases he2 : ensureAll dd with _ | os'
    · simp [he, he2] at h2
    simp only [he, he2, Option.some.injEq] at h2
    subst h2
    have ih' := ih (fun i t o hi => hP i t o (by simp [hi])) us' os' hb' (by simp [hr2, he2])
    intro p hp
    simp only [List.zip_cons_cons, List.mem_cons] at hp
    rcases hp with rfl | hp
    · cases a with
      | value v =>
        simp only [ArgRef.tree, Option.some.injEq] at ha; subst ha
        simp only [ArgRef.resolve, Option.some.injEq] at hr; subst hr
        rw [ensureLazy_value] at he
        simp only [Option.some.injEq] at he; subst he
        exact hb.value v
      | function u =>
        simp only [ArgRef.tree] at ha
        simp only [ArgRef.resolve, Option.some.injEq] at hr; subst hr
        rw [ensureLazy_function] at he
        by_cases hv : u.ret = .void
        · simp [hv] at he
        · simp only [hv, if_false, Option.some.injEq] at he ha
          subst ha; subst he
          exact hb.function u hv
      | var i =>
        simp only [ArgRef.tree] at ha
        simp only [ArgRef.resolve, Option.map_eq_some_iff] at hr
        obtain ⟨x, hx, rfl⟩ := hr
        have hs := h.get? ha hx
        obtain ⟨c, us, rfl⟩ := hz t (List.mem_of_getElem? ha)
        have hs' := hs
        simp only [Shape] at hs'
        obtain ⟨u, cache, ds, _, _, _, rfl⟩ := hs'
        rw [ensureLazy_facade] at he
        simp only [Option.some.injEq] at he; subst he
        exact hP i _ _ (by simp) ha hx
    · exact ih' p hp

theorem args_built {P : Tree D W E S → Obj D W E S → Prop} (hb : Built P)
    {ts : List (Tree D W E S)} {vars : List (Obj D W E S)} (h : ShapeL ts vars)
    (hz : ∀ t ∈ ts, ∃ c us, t = .lazy c us) (hP : AllVars P ts vars)
    (as : List (ArgRef D W E S)) : ∀ us os, argTrees ts as = some us →
      (resolveAll vars as).bind ensureAll = some os → ∀ p ∈ us.zip os, P p.1 p.2 :=
  args_built_of hb h hz as (fun i t o _ => hP i t o)

/-- Generic invariant over histories. -/
theorem step_allVars {P : Tree D W E S → Obj D W E S → Prop} (hb : Built P) (g : Glue)
    {ts : List (Tree D W E S)} {s : State D W E S} (hi : Inv ts s) (hP : AllVars P ts s.vars)
    (hcall : ∀ t ∈ ts, ∀ o env, Shape t o → P t o → P t (call0 g o env).2.1)
    (hpoll : ∀ t ∈ ts, ∀ o env, Shape t o → P t o → P t (evalN g o env).2.1)
    (op : Op D W E S) : AllVars P (stepTrees ts op) (step g s op).2.vars := by
  cases op with
  | mk f deps =>
    have key := mk_tree hi.shape hi.lz f deps
    simp only [stepTrees, step]
    rcases ha : argTrees ts deps with _ | us
    · rw [key.2 ha]; exact hP
    · obtain ⟨os, hos, hsh, hos2⟩ := key.1 us ha
      rw [hos]
      refine hP.append hi.shape.length ?_
      exact hb.lazy f us os hsh.length
        (args_built hb hi.shape hi.lz hP deps us os ha hos2) hsh
  | copy i =>
    simp only [stepTrees, step]
    rcases ho : s.vars[i]? with _ | o
    · have : ts[i]? = none := by
        rw [List.getElem?_eq_none_iff] at ho ⊢
        rw [hi.shape.length]; exact ho
      rw [this]; exact hP
    · obtain ⟨h2, _⟩ := List.getElem?_eq_some_iff.1 ho
      have h1 : i < ts.length := by rw [hi.shape.length]; exact h2
      have ht : ts[i]? = some ts[i] := List.getElem?_eq_getElem h1
      rw [ht]
      exact hP.append hi.shape.length (hP i _ _ ht ho)
  | call i =>
    simp only [stepTrees, step]
    rcases ho : s.vars[i]? with _ | o
    · exact hP
    · refine hP.set ?_
      intro t ht
      exact hcall t (List.mem_of_getElem? ht) o s.env (hi.shape.get? ht ho) (hP i t o ht ho)
  | poll i =>
    simp only [stepTrees, step]
    rcases ho : s.vars[i]? with _ | o
    · exact hP
    · refine hP.set ?_
      intro t ht
      exact hpoll t (List.mem_of_getElem? ht) o s.env (hi.shape.get? ht ho) (hP i t o ht ho)
  | poke f => exact hP

theorem run_allVars {P : Tree D W E S → Obj D W E S → Prop} (hb : Built P) (g : Glue)
    (ops : List (Op D W E S)) : ∀ {ts : List (Tree D W E S)} {s : State D W E S}, Inv ts s →
    AllVars P ts s.vars →
    (∀ t ∈ runTrees ts ops, ∀ o env, Shape t o → P t o → P t (call0 g o env).2.1) →
    (∀ t ∈ runTrees ts ops, ∀ o env, Shape t o → P t o → P t (evalN g o env).2.1) →
    AllVars P (runTrees ts ops) (run g s ops).2.vars := by
  induction ops with
  | nil => intro ts s _ h _ _; exact h
  | cons op ops ih =>
    intro ts s hi hP hc hp
    have hsub : ∀ t ∈ ts, t ∈ runTrees ts (op :: ops) := fun t ht =>
      (runTrees_prefix (op :: ops) ts).subset ht
    exact ih (step_inv g hi op) (step_allVars hb g hi hP (fun t ht => hc t (hsub t ht))
      (fun t ht => hp t (hsub t ht)) op) hc hp

theorem reach_allVars {P : Tree D W E S → Obj D W E S → Prop} (hb : Built P) (g : Glue) (w : W)
    (ops : List (Op D W E S))
    (hc : ∀ t ∈ runTrees [] ops, ∀ o env, Shape t o → P t o → P t (call0 g o env).2.1)
    (hp : ∀ t ∈ runTrees [] ops, ∀ o env, Shape t o → P t o → P t (evalN g o env).2.1) :
    AllVars P (runTrees [] ops) (run g (State.init w) ops).2.vars :=
  run_allVars hb g ops (init_inv w) (by intro i t o h _; simp at h) hc hp

/-! ### Calls leave the same object as polls -/

theorem call0_obj (g : Glue) (c : FnCode D W E S) (us : List (Tree D W E S)) (o : Obj D W E S)
    (env : Env D W S) (h : Shape (.lazy c us) o) :
    (call0 g o env).2 = (evalN g o env).2 := by
  simp only [Shape] at h
  obtain ⟨u, cache, ds, rfl, hf, hds, rfl⟩ := h
  rw [call0_facade, evalN_facade]

omit [CxxData D] in
theorem ConsL_of_zip (m : Meaning D W E S O) : ∀ (us : List (Tree D W E S))
    (os : List (Obj D W E S)), us.length = os.length → (∀ p ∈ us.zip os, Cons m p.1 p.2) →
    ConsL m us os
  | [], _, _, _ => by simp [ConsL]
  | _ :: _, [], h, _ => by simp at h
  | u :: us, o :: os, h, hp => by
    simp only [ConsL]
    exact ⟨o, os, rfl, hp (u, o) (by simp), ConsL_of_zip m us os (by simpa using h)
      (fun p hp' => hp p (by simp [hp']))⟩

theorem cons_built (m : Meaning D W E S O) : Built (Cons m) where
  value v := by simp [Cons]
  function u _ := by simp [Cons]
  lazy f us os hl hp _ := by
    simp only [Cons, detailLazy]
    refine ⟨_, _, _, rfl, ?_, ConsL_of_zip m us os hl hp⟩
    intro v hv; rw [Cache.empty_val?] at hv; cases hv

omit [CxxData D] in
theorem PristineL_of_zip : ∀ (us : List (Tree D W E S))
    (os : List (Obj D W E S)), us.length = os.length → (∀ p ∈ us.zip os, p.2.Pristine) →
    Obj.PristineL os
  | [], [], _, _ => by simp [Obj.PristineL]
  | [], _ :: _, h, _ => by simp at h
  | _ :: _, [], h, _ => by simp at h
  | u :: us, o :: os, h, hp => by
    simp only [Obj.PristineL]
    exact ⟨hp (u, o) (by simp), PristineL_of_zip us os (by simpa using h)
      (fun p hp' => hp p (by simp [hp']))⟩

theorem pristine_built : Built (fun (_ : Tree D W E S) o => o.Pristine) where
  value v := by simp [Obj.Pristine]
  function u _ := by simp [Obj.Pristine, Obj.PristineL, detailLazy, Cache.empty_val?]
  lazy f us os hl hp _ := by
    simp only [Obj.Pristine, detailLazy, Cache.empty_val?, true_and]
    exact PristineL_of_zip us os hl hp

/-- With `Drops`, the variables of every reachable state are pristine. -/
theorem reach_pristine (g : Glue) (hg : g.Drops) (w : W) (ops : List (Op D W E S)) :
    AllVars (fun _ o => o.Pristine) (runTrees [] ops) (run g (State.init w) ops).2.vars := by
  have hz := (reach_inv g w ops).lz
  have key : ∀ t ∈ runTrees [] ops, ∀ (o : Obj D W E S) env, Shape t o → o.Pristine →
      (evalN g o env).2.1.Pristine := by
    intro t ht o env hs hp
    obtain ⟨c, us, rfl⟩ := hz t ht
    simp only [Shape] at hs
    obtain ⟨u, cache, ds, rfl, hf, hds, rfl⟩ := hs
    rw [evalN_facade]
    simp only [Obj.Pristine] at hp ⊢
    exact facade_pristine g hg _ env (by simpa [Obj.Pristine] using hp)
  refine reach_allVars pristine_built g w ops ?_ key
  intro t ht o env hs hp
  obtain ⟨c, us, rfl⟩ := hz t ht
  rw [call0_obj g c us o env hs]
  exact key _ ht o env hs hp

/-- Consistency of all variables, for every `Glue` that keeps all or nothing. -/
theorem reach_cons (hs : SoundNe D) (g : Glue) (hg : g.Retains ∨ g.Drops) (m : Meaning D W E S O)
    (w : W) (ops : List (Op D W E S)) (hok : ∀ t ∈ runTrees [] ops, TreeOk g m t) :
    AllVars (Cons m) (runTrees [] ops) (run g (State.init w) ops).2.vars := by
  rcases hg with hg | hg
  · have hz := (reach_inv g w ops).lz
    have key : ∀ t ∈ runTrees [] ops, ∀ (o : Obj D W E S) env, Shape t o → Cons m t o →
        Cons m t (evalN g o env).2.1 := by
      intro t ht o env hsh hc
      obtain ⟨h1, h2, h3⟩ := hok t ht
      obtain ⟨r, o', env', he, _, _, _, _, hl, _⟩ := evalN_stepOk hs g m t o env hsh h1 h2 h3 hc
      rw [he]
      exact (hl hg).cons
    refine reach_allVars (cons_built m) g w ops ?_ key
    intro t ht o env hsh hc
    obtain ⟨c, us, rfl⟩ := hz t ht
    rw [call0_obj g c us o env hsh]
    exact key _ ht o env hsh hc
  · intro i t o ht ho
    exact Pristine.cons m t o ((reach_inv g w ops).shape.get? ht ho)
      (reach_pristine g hg w ops i t o ht ho)

/-- The result of a call of a consistent lazy function. -/
theorem call0_stepOk (hs : SoundNe D) (g : Glue) (m : Meaning D W E S O) (c : FnCode D W E S)
    (us : List (Tree D W E S)) (o : Obj D W E S) (env : Env D W S) (h : Shape (.lazy c us) o)
    (hok : TreeOk g m (.lazy c us)) (hc : Cons m (.lazy c us) o) :
    (call0 g o env).1 = .ok (m.result (m.obs env.w) (.lazy c us)) := by
  obtain ⟨r, o', env', he, hv, hl, _⟩ := evalN_stepOk hs g m _ o env h hok.1 hok.2.1 hok.2.2 hc
  have h' := h
  simp only [Shape] at h'
  obtain ⟨u, cache, ds, rfl, hf, hds, rfl⟩ := h'
  rw [call0_facade]
  rw [evalN_facade] at he
  have hrv : (Obj.core (.regularized u) cache ds : Obj D W E S).valueIsRV = true ↔ u.ret ≠ .val := by
    cases cache <;> simp_all [Obj.valueIsRV, Cache.Fits]
  rcases h1 : (evalN g (Obj.core (.regularized u) cache ds) env).1 with r0 | _ | _ | _
  · rw [h1] at he
    simp only [Out.map, LazyRes.through, Prod.mk.injEq, Out.ok.injEq] at he
    obtain ⟨rfl, -, -⟩ := he
    simp only [Bool.and_eq_true, Bool.not_eq_true', Bool.and_eq_false_iff,
      Bool.or_eq_false_iff] at hl
    have : (r0.live && !(g.resultByRef && g.unwrapParamByValue)) = true := by
      rcases hl with ⟨q, q' | q'⟩
      · simp [q, q']
      · simp [q, q'.2]
    simp only [this, if_true, Meaning.result]
    congr 1
    by_cases hx : u.ret = .val
    · have : (Obj.core (.regularized u) cache ds : Obj D W E S).valueIsRV = false := by
        cases hq : (Obj.core (.regularized u) cache ds : Obj D W E S).valueIsRV
        · rfl
        · exact absurd hx (hrv.1 hq)
      simp only [hx, if_true, this]
      simpa using hv
    · simp only [hx, if_false, hrv.2 hx, if_true]
  all_goals (rw [h1] at he; simp [Out.map] at he)

end Pigro
