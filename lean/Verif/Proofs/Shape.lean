import Verif.Spec.Tree
/-!
# Objects reachable by client programs have the shape of their tree
-/
namespace Pigro
variable {D W E S : Type}

/-- The cache is the kind of `optional` selected by the return type. -/
def Cache.Fits (c : Cache D) (r : RetTy) : Prop :=
  match c with
  | .opt _ => r = .val
  | .rv _ => r ≠ .val

theorem Cache.empty_fits (r : RetTy) : (Cache.empty r : Cache D).Fits r := by
  cases r <;> simp [Cache.empty, Cache.Fits]

theorem Cache.assign_fits {c : Cache D} {r : RetTy} (v : Val D) (h : c.Fits r) :
    (c.assign v).Fits r := by
  cases c <;> simpa [Cache.assign, Cache.Fits] using h

section
variable [CxxData D]
mutual
/-- `Shape t o`: `o` is a state of a lazy object built from `t`. -/
def Shape : Tree D W E S → Obj D W E S → Prop
  | .value v, o => o = .lazyValue v false
  | .function c, o => ∃ u cache, u.toFnCode = c ∧ c.ret ≠ .void ∧ cache.Fits c.ret ∧
      o = .core (.wrapDep u) cache [.lazyValue (.data CxxData.zero) true]
  | .lazy c ts, o => ∃ u cache ds, u.toFnCode = c ∧ cache.Fits c.ret ∧ ShapeL ts ds ∧
      o = .unregularized (.unwrapped (.core (.regularized u) cache ds))
/-- Element-wise `Shape`. -/
def ShapeL : List (Tree D W E S) → List (Obj D W E S) → Prop
  | [], ds => ds = []
  | t :: ts, ds => ∃ d ds', Shape t d ∧ ShapeL ts ds' ∧ ds = d :: ds'
end
end

theorem keep_or {α : Type} (b : Bool) (x y : α) : keep b x y = x ∨ keep b x y = y := by
  cases b <;> simp [keep]

@[simp] theorem keep_true {α : Type} (x y : α) : keep true x y = x := rfl
@[simp] theorem keep_false {α : Type} (x y : α) : keep false x y = y := rfl
@[simp] theorem keep_self {α : Type} (b : Bool) (x : α) : keep b x x = x := by
  cases b <;> rfl

theorem keep_ind {α : Type} {P : α → Prop} (b : Bool) {x y : α} (hx : P x) (hy : P y) :
    P (keep b x y) := by
  cases b <;> simpa

@[simp] theorem keep_code (b : Bool) (u u' : UFn D W E S) (h : u'.toFnCode = u.toFnCode) :
    (keep b u u').toFnCode = u.toFnCode := by
  cases b <;> simp [h]

@[simp] theorem invoke_code (u : UFn D W E S) (k : Kind) (args : List (Val D)) (env : Env D W S) :
    (u.invoke k args env).2.1.toFnCode = u.toFnCode := rfl

/-- Calling a function object keeps its code. -/
theorem Fun.call_regularized (g : Glue) (u : UFn D W E S) (args : List (Val D)) (env : Env D W S) :
    (Fun.call g (.regularized u) args env).2.1 =
      .regularized (keep g.regParamByValue u (u.invoke .fn args env).2.1) := by
  rcases h : u.invoke .fn args env with ⟨r, u', env'⟩
  cases r <;> simp [Fun.call, h]

theorem Fun.call_wrapDep (g : Glue) (u : UFn D W E S) (args : List (Val D)) (env : Env D W S) :
    (Fun.call g (.wrapDep u) args env).2.1 =
      .wrapDep (keep g.wrapParamByValue u (u.invoke .dep [] env).2.1) := by
  rcases h : u.invoke .dep [] env with ⟨r, u', env'⟩
  cases r <;> simp [Fun.call, h]

variable [CxxData D]

/-- `coreTail` leaves the function object untouched or calls it once; the cache likewise. -/
theorem coreTail_fun (g : Glue) (f : Fun D W E S) (cache : Cache D) (rs : List (LazyRes D))
    (env : Env D W S) :
    ((coreTail g f cache rs env).2.1 = f ∨
      ∃ vs, (coreTail g f cache rs env).2.1 = (f.call g vs env).2.1) ∧
    ((coreTail g f cache rs env).2.2.1 = cache ∨
      ∃ v, (coreTail g f cache rs env).2.2.1 = cache.assign v) := by
  unfold coreTail
  dsimp only
  split
  · split
    · simp
    · rename_i values _
      rcases h : Fun.call g f values env with ⟨o, f', env'⟩
      cases o with
      | ok r =>
        dsimp only
        split
        · exact ⟨.inr ⟨values, by rw [h]⟩, .inr ⟨r, rfl⟩⟩
        · exact ⟨.inr ⟨values, by rw [h]⟩, .inr ⟨r, rfl⟩⟩
      | _ => exact ⟨.inr ⟨values, by rw [h]⟩, .inl rfl⟩
  · split <;> simp

theorem coreTail_regularized (g : Glue) (u : UFn D W E S) (cache : Cache D)
    (rs : List (LazyRes D)) (env : Env D W S) :
    ∃ u', (coreTail g (.regularized u) cache rs env).2.1 = .regularized u' ∧
      u'.toFnCode = u.toFnCode := by
  rcases (coreTail_fun g (.regularized u) cache rs env).1 with h | ⟨vs, h⟩
  · exact ⟨u, h, rfl⟩
  · rw [Fun.call_regularized] at h
    exact ⟨_, h, keep_code _ _ _ rfl⟩

theorem coreTail_wrapDep (g : Glue) (u : UFn D W E S) (cache : Cache D)
    (rs : List (LazyRes D)) (env : Env D W S) :
    ∃ u', (coreTail g (.wrapDep u) cache rs env).2.1 = .wrapDep u' ∧
      u'.toFnCode = u.toFnCode := by
  rcases (coreTail_fun g (.wrapDep u) cache rs env).1 with h | ⟨vs, h⟩
  · exact ⟨u, h, rfl⟩
  · rw [Fun.call_wrapDep] at h
    exact ⟨_, h, keep_code _ _ _ rfl⟩

theorem coreTail_fits (g : Glue) (f : Fun D W E S) (cache : Cache D)
    (rs : List (LazyRes D)) (env : Env D W S) {r : RetTy} (h : cache.Fits r) :
    (coreTail g f cache rs env).2.2.1.Fits r := by
  rcases (coreTail_fun g f cache rs env).2 with h' | ⟨v, h'⟩
  · rw [h']; exact h
  · rw [h']; exact Cache.assign_fits v h

/-! ### Evaluation equations in projection form -/

theorem evalN_core_ok (g : Glue) (f : Fun D W E S) (cache : Cache D) (deps : List (Obj D W E S))
    (env : Env D W S) {rs deps' env1} (h : evalDeps g deps env = (.ok rs, deps', env1)) :
    evalN g (.core f cache deps) env =
      ((coreTail g f cache rs env1).1,
       .core (keep g.coreParamsByValue f (coreTail g f cache rs env1).2.1)
        (keep g.bindFrontCopies cache (coreTail g f cache rs env1).2.2.1)
        (keep g.coreParamsByValue deps deps'), (coreTail g f cache rs env1).2.2.2) := by
  rw [evalN, h]

theorem evalN_core_fail (g : Glue) (f : Fun D W E S) (cache : Cache D) (deps : List (Obj D W E S))
    (env : Env D W S) {o deps' env1} (h : evalDeps g deps env = (o, deps', env1))
    (ho : o.isOk = false) :
    evalN g (.core f cache deps) env =
      (o.map (fun _ => ⟨.rvoid, false, false⟩),
        .core f cache (keep g.coreParamsByValue deps deps'), env1) := by
  rw [evalN, h]
  cases o <;> simp_all [Out.isOk]

/-- The state of a core object after a call. -/
theorem evalN_core_obj (g : Glue) (f : Fun D W E S) (cache : Cache D) (deps : List (Obj D W E S))
    (env : Env D W S) :
    ∃ rs env1,
      (evalN g (.core f cache deps) env).2.1 =
        .core f cache (keep g.coreParamsByValue deps (evalDeps g deps env).2.1) ∨
      (evalN g (.core f cache deps) env).2.1 =
        .core (keep g.coreParamsByValue f (coreTail g f cache rs env1).2.1)
          (keep g.bindFrontCopies cache (coreTail g f cache rs env1).2.2.1)
          (keep g.coreParamsByValue deps (evalDeps g deps env).2.1) := by
  rcases h : evalDeps g deps env with ⟨o, deps', env1⟩
  cases o with
  | ok rs =>
    refine ⟨rs, env1, .inr ?_⟩
    rw [evalN_core_ok g f cache deps env h]
  | _ =>
    refine ⟨[], env1, .inl ?_⟩
    rw [evalN_core_fail g f cache deps env h rfl]

theorem evalN_unwrapped (g : Glue) (i : Obj D W E S) (env : Env D W S) :
    evalN g (.unwrapped i) env =
      ((evalN g i env).1.map (LazyRes.through (g.resultByRef && g.unwrapParamByValue)),
        .unwrapped (keep g.unwrapParamByValue i (evalN g i env).2.1), (evalN g i env).2.2) := by
  rw [evalN]

theorem evalN_unregularized (g : Glue) (i : Obj D W E S) (env : Env D W S) :
    evalN g (.unregularized i) env =
      ((evalN g i env).1.map (LazyRes.through (g.resultByRef && g.facadeParamByValue)),
        .unregularized (keep g.facadeParamByValue i (evalN g i env).2.1), (evalN g i env).2.2) := by
  rw [evalN]

omit [CxxData D] in
theorem keep_unwrapped (b : Bool) (x y : Obj D W E S) :
    keep b (Obj.unwrapped x) (.unwrapped y) = .unwrapped (keep b x y) := by cases b <;> rfl

omit [CxxData D] in
theorem keep_core (b : Bool) (f f' : Fun D W E S) (c c' : Cache D) (x y : List (Obj D W E S)) :
    keep b (Obj.core f c x) (.core f' c' y) = .core (keep b f f') (keep b c c') (keep b x y) := by
  cases b <;> rfl

/-- Calling a lazy variable without arguments, in terms of `evalN` of the wrapped object. -/
theorem call0_facade (g : Glue) (i : Obj D W E S) (env : Env D W S) :
    call0 g (.unregularized (.unwrapped i)) env =
      ((match (evalN g i env).1 with
        | .ok r => if r.live && !(g.resultByRef && g.unwrapParamByValue) then
            .ok (if i.valueIsRV then none else some r.value) else .ub
        | .thrown e => .thrown e
        | .ub => .ub
        | .illFormed => .illFormed),
       .unregularized (.unwrapped
        (keep (g.facadeParamByValue || g.unwrapParamByValue) i (evalN g i env).2.1)),
       (evalN g i env).2.2) := by
  rw [call0, call0, evalN_unwrapped]
  rcases h : evalN g i env with ⟨o, i', env'⟩
  have hk : keep g.facadeParamByValue (Obj.unwrapped i)
      (.unwrapped (keep g.unwrapParamByValue i i')) =
      .unwrapped (keep (g.facadeParamByValue || g.unwrapParamByValue) i i') := by
    cases g.facadeParamByValue <;> cases g.unwrapParamByValue <;> rfl
  cases o with
  | ok r =>
    simp only [Out.map, LazyRes.through, hk, Obj.valueIsRV]
    cases hl : (r.live && !(g.resultByRef && g.unwrapParamByValue))
    · simp
    · simp only [if_true]; rfl
  | _ => simp [Out.map, hk]

theorem evalN_facade (g : Glue) (i : Obj D W E S) (env : Env D W S) :
    evalN g (.unregularized (.unwrapped i)) env =
      ((evalN g i env).1.map (LazyRes.through
          (g.resultByRef && (g.facadeParamByValue || g.unwrapParamByValue))),
       .unregularized (.unwrapped
        (keep (g.facadeParamByValue || g.unwrapParamByValue) i (evalN g i env).2.1)),
       (evalN g i env).2.2) := by
  rw [evalN_unregularized, evalN_unwrapped]
  rcases h : evalN g i env with ⟨o, i', env'⟩
  cases o <;> cases g.facadeParamByValue <;> cases g.unwrapParamByValue <;>
    cases g.resultByRef <;> simp [Out.map, LazyRes.through]

/-! ### Shape is invariant -/

mutual
theorem evalN_shape (g : Glue) (t : Tree D W E S) (o : Obj D W E S) (env : Env D W S)
    (h : Shape t o) : Shape t (evalN g o env).2.1 := by
  match t with
  | .value v => simp only [Shape] at h; subst h; simp [evalN, Shape]
  | .function c =>
    simp only [Shape] at h
    obtain ⟨u, cache, rfl, hv, hf, rfl⟩ := h
    simp only [Shape]
    have hd : ∀ e, (evalDeps g [Obj.lazyValue (.data CxxData.zero) true] e).2.1 =
        [(Obj.lazyValue (.data CxxData.zero) true : Obj D W E S)] := by
      intro e; simp [evalDeps, evalN]
    obtain ⟨rs, env1, h1 | h1⟩ := evalN_core_obj g (.wrapDep u) cache
      [Obj.lazyValue (.data CxxData.zero) true] env
    · rw [h1, hd]
      exact ⟨u, cache, rfl, hv, hf, by simp⟩
    · rw [h1, hd]
      obtain ⟨u', hu', hc⟩ := coreTail_wrapDep g u cache rs env1
      rw [hu']
      refine ⟨keep g.coreParamsByValue u u', _, by simp [hc], hv,
        keep_ind (P := fun c => Cache.Fits c u.ret) g.bindFrontCopies hf (coreTail_fits g (.wrapDep u) cache rs env1 hf), ?_⟩
      cases g.coreParamsByValue <;> simp
  | .lazy c ts =>
    simp only [Shape] at h
    obtain ⟨u, cache, ds, rfl, hf, hds, rfl⟩ := h
    rw [evalN_facade]
    have hds' := evalDeps_shape g ts ds env hds
    obtain ⟨rs, env1, h1 | h1⟩ := evalN_core_obj g (.regularized u) cache ds env
    · rw [h1]
      simp only [Shape]
      rw [keep_core]
      exact ⟨u, cache, keep (g.facadeParamByValue || g.unwrapParamByValue) ds
        (keep g.coreParamsByValue ds _), rfl, hf, keep_ind _ hds (keep_ind _ hds hds'), by simp⟩
    · rw [h1]
      simp only [Shape]
      obtain ⟨u', hu', hc⟩ := coreTail_regularized g u cache rs env1
      rw [keep_core, hu']
      refine ⟨keep (g.facadeParamByValue || g.unwrapParamByValue) u
        (keep g.coreParamsByValue u u'), _, _, by simp [hc],
        keep_ind (P := fun c => Cache.Fits c u.ret) (g.facadeParamByValue || g.unwrapParamByValue) hf
          (keep_ind (P := fun c => Cache.Fits c u.ret) g.bindFrontCopies hf
            (coreTail_fits g (.regularized u) cache rs env1 hf)),
        keep_ind (g.facadeParamByValue || g.unwrapParamByValue) hds
          (keep_ind g.coreParamsByValue hds hds'), ?_⟩
      cases g.coreParamsByValue <;>
        cases (g.facadeParamByValue || g.unwrapParamByValue) <;> simp
theorem evalDeps_shape (g : Glue) (ts : List (Tree D W E S)) (ds : List (Obj D W E S))
    (env : Env D W S) (h : ShapeL ts ds) : ShapeL ts (evalDeps g ds env).2.1 := by
  match ts with
  | [] => simp only [ShapeL] at h; subst h; simp [evalDeps, ShapeL]
  | t :: ts =>
    simp only [ShapeL] at h
    obtain ⟨d, ds', hd, hds, rfl⟩ := h
    have h1 := evalN_shape g t d env hd
    rw [evalDeps]
    rcases he : evalN g d env with ⟨o, d', env1⟩
    rw [he] at h1
    cases o with
    | ok r =>
      simp only [ShapeL]
      exact ⟨_, _, h1, evalDeps_shape g ts ds' env1 hds, rfl⟩
    | _ =>
      simp only [ShapeL]
      exact ⟨_, _, h1, hds, rfl⟩
end

theorem call0_shape (g : Glue) (t : Tree D W E S) (o : Obj D W E S) (env : Env D W S)
    (h : Shape t o) : Shape t (call0 g o env).2.1 := by
  cases t with
  | value v => simp only [Shape] at h; subst h; simp [call0, Shape]
  | function c =>
    simp only [Shape] at h
    obtain ⟨u, cache, rfl, hv, hf, rfl⟩ := h
    simp only [call0, Shape]
    exact ⟨u, cache, rfl, hv, hf, rfl⟩
  | lazy c ts =>
    have h' := evalN_shape g _ o env h
    simp only [Shape] at h
    obtain ⟨u, cache, ds, rfl, hf, hds, rfl⟩ := h
    rw [call0_facade]
    rwa [evalN_facade] at h'

/-! ### Reachable states -/

theorem ShapeL_iff {ts : List (Tree D W E S)} {ds : List (Obj D W E S)} :
    ShapeL ts ds ↔ ts.length = ds.length ∧
      ∀ i (h1 : i < ts.length) (h2 : i < ds.length), Shape ts[i] ds[i] := by
  induction ts generalizing ds with
  | nil =>
    simp only [ShapeL]
    constructor
    · rintro rfl; simp
    · intro h; have := h.1; simp at this; exact List.eq_nil_of_length_eq_zero this.symm
  | cons t ts ih =>
    simp only [ShapeL]
    constructor
    · rintro ⟨d, ds', hd, hds, rfl⟩
      have := ih.1 hds
      refine ⟨by simp [this.1], ?_⟩
      intro i h1 h2
      cases i with
      | zero => exact hd
      | succ i => simpa using this.2 i (by simpa using h1) (by simpa using h2)
    · rintro ⟨hl, h⟩
      cases ds with
      | nil => simp at hl
      | cons d ds' =>
        refine ⟨d, ds', h 0 (by simp) (by simp), ih.2 ⟨by simpa using hl, ?_⟩, rfl⟩
        intro i h1 h2
        exact h (i+1) (by simpa using h1) (by simpa using h2)

theorem ShapeL.get? {ts : List (Tree D W E S)} {ds : List (Obj D W E S)} (h : ShapeL ts ds)
    {i : Nat} {t : Tree D W E S} {o : Obj D W E S} (ht : ts[i]? = some t) (ho : ds[i]? = some o) :
    Shape t o := by
  obtain ⟨h1, rfl⟩ := List.getElem?_eq_some_iff.1 ht
  obtain ⟨h2, rfl⟩ := List.getElem?_eq_some_iff.1 ho
  exact (ShapeL_iff.1 h).2 i h1 h2

theorem ShapeL.length {ts : List (Tree D W E S)} {ds : List (Obj D W E S)} (h : ShapeL ts ds) :
    ts.length = ds.length := (ShapeL_iff.1 h).1

theorem ShapeL.append {ts ts' : List (Tree D W E S)} {ds ds' : List (Obj D W E S)}
    (h : ShapeL ts ds) (h' : ShapeL ts' ds') : ShapeL (ts ++ ts') (ds ++ ds') := by
  induction ts generalizing ds with
  | nil => simp only [ShapeL] at h; subst h; simpa
  | cons t ts ih =>
    simp only [ShapeL] at h
    obtain ⟨d, ds1, hd, hds, rfl⟩ := h
    exact ⟨d, _, hd, ih hds, rfl⟩

theorem ShapeL.set {ts : List (Tree D W E S)} {ds : List (Obj D W E S)} (h : ShapeL ts ds)
    {i : Nat} {t : Tree D W E S} {o : Obj D W E S} (ht : ts[i]? = some t) (ho : Shape t o) :
    ShapeL ts (ds.set i o) := by
  obtain ⟨h1, rfl⟩ := List.getElem?_eq_some_iff.1 ht
  have hl := (ShapeL_iff.1 h)
  refine ShapeL_iff.2 ⟨by simp [hl.1], ?_⟩
  intro j hj1 hj2
  rw [List.getElem_set]
  split
  · subst_vars; exact ho
  · exact hl.2 j hj1 (by simpa using hj2)

theorem ensureLazy_value (v : Val D) :
    ensureLazy (DepArg.value v : DepArg D W E S) = some (.lazyValue v false) := rfl

theorem ensureLazy_function (u : UFn D W E S) :
    ensureLazy (DepArg.function u) = if u.ret = .void then none
      else some (detailLazy (.wrapDep u) [.lazyValue (.data CxxData.zero) true]) := rfl

theorem ensureLazy_facade (o : Obj D W E S) :
    ensureLazy (DepArg.lazyObj (.unregularized o)) = some (.unregularized o) := rfl

theorem resolve_tree {ts : List (Tree D W E S)} {vars : List (Obj D W E S)} (h : ShapeL ts vars)
    (hz : ∀ t ∈ ts, ∃ c us, t = .lazy c us) (a : ArgRef D W E S) :
    match a.tree ts with
    | some t => ∃ o, (a.resolve vars).bind ensureLazy = some o ∧ Shape t o
    | none => (a.resolve vars).bind ensureLazy = none := by
  cases a with
  | value v =>
    simp [ArgRef.tree, ArgRef.resolve, ensureLazy_value, Shape]
  | function u =>
    simp only [ArgRef.tree, ArgRef.resolve, ensureLazy_function, Option.bind_some]
    by_cases hv : u.ret = .void
    · simp [hv]
    · simp only [hv, if_false]
      refine ⟨_, rfl, ?_⟩
      simp only [Shape]
      exact ⟨u, _, rfl, hv, Cache.empty_fits _, rfl⟩
  | var i =>
    simp only [ArgRef.tree, ArgRef.resolve]
    rcases ho : vars[i]? with _ | o
    · have : ts[i]? = none := by
        rw [List.getElem?_eq_none_iff] at ho ⊢
        rw [h.length]; exact ho
      simp [this]
    · obtain ⟨h2, _⟩ := List.getElem?_eq_some_iff.1 ho
      have h1 : i < ts.length := by rw [h.length]; exact h2
      have ht : ts[i]? = some ts[i] := List.getElem?_eq_getElem h1
      have hs := h.get? ht ho
      obtain ⟨c, us, hcu⟩ := hz ts[i] (List.getElem_mem h1)
      rw [ht, hcu]
      rw [hcu] at hs
      have hs' := hs
      simp only [Shape] at hs'
      obtain ⟨u, cache, ds, _, _, _, rfl⟩ := hs'
      simp only [Option.map_some, Option.bind_some, ensureLazy_facade]
      exact ⟨_, rfl, hs⟩

/-- All variables are lazy functions of the shape computed from the program text. -/
structure Inv (ts : List (Tree D W E S)) (s : State D W E S) : Prop where
  shape : ShapeL ts s.vars
  lz : ∀ t ∈ ts, ∃ c us, t = .lazy c us

theorem args_tree {ts : List (Tree D W E S)} {vars : List (Obj D W E S)} (h : ShapeL ts vars)
    (hz : ∀ t ∈ ts, ∃ c us, t = .lazy c us) (as : List (ArgRef D W E S)) :
    (∀ us, argTrees ts as = some us →
      ∃ os, (resolveAll vars as).bind ensureAll = some os ∧ ShapeL us os) ∧
    (argTrees ts as = none → (resolveAll vars as).bind ensureAll = none) := by
  induction as with
  | nil => simp [argTrees, resolveAll, ensureAll, ShapeL]
  | cons a as ih =>
    rcases ha : a.tree ts with _ | t
    · have : (a.resolve vars).bind ensureLazy = none := by
        have := resolve_tree h hz a
        rwa [ha] at this
      refine ⟨by simp [argTrees, ha], fun _ => ?_⟩
      rw [resolveAll]
      rcases hr : a.resolve vars with _ | d
      · rfl
      · rw [hr] at this
        simp only [Option.bind_some] at this
        rcases hr2 : resolveAll vars as with _ | ds
        · rfl
        · simp [ensureAll, this]
    · have hrt := resolve_tree h hz a
      rw [ha] at hrt
      obtain ⟨o, ho, hs⟩ := hrt
      rcases hr : a.resolve vars with _ | d
      · rw [hr] at ho; cases ho
      rw [hr] at ho
      simp only [Option.bind_some] at ho
      rcases hb : argTrees ts as with _ | us
      · refine ⟨by simp [argTrees, hb], fun _ => ?_⟩
        have := ih.2 hb
        rw [resolveAll, hr]
        rcases hr2 : resolveAll vars as with _ | ds
        · rfl
        · rw [hr2] at this
          simp only [Option.bind_some] at this
          simp [ensureAll, this]
      · refine ⟨?_, by simp [argTrees, ha, hb]⟩
        intro us' hus
        simp only [argTrees, ha, hb, Option.some.injEq] at hus
        subst hus
        obtain ⟨os, hos, hsh⟩ := ih.1 us hb
        rcases hr2 : resolveAll vars as with _ | ds
        · rw [hr2] at hos; cases hos
        rw [hr2] at hos
        simp only [Option.bind_some] at hos
        refine ⟨o :: os, ?_, ?_⟩
        · simp [resolveAll, hr, hr2, ensureAll, ho, hos]
        · simp only [ShapeL]; exact ⟨o, os, hs, hsh, rfl⟩

theorem mk_tree {ts : List (Tree D W E S)} {vars : List (Obj D W E S)} (h : ShapeL ts vars)
    (hz : ∀ t ∈ ts, ∃ c us, t = .lazy c us) (f : UFn D W E S) (as : List (ArgRef D W E S)) :
    (∀ us, argTrees ts as = some us → ∃ os,
      (resolveAll vars as).bind (pigroLazy f) =
        some (.unregularized (.unwrapped (.core (.regularized f) (Cache.empty f.ret) os))) ∧
      ShapeL us os ∧ (resolveAll vars as).bind ensureAll = some os) ∧
    (argTrees ts as = none → (resolveAll vars as).bind (pigroLazy f) = none) := by
  have key := args_tree h hz as
  have hb : (resolveAll vars as).bind (pigroLazy f) =
      ((resolveAll vars as).bind ensureAll).map
        (fun os => .unregularized (.unwrapped (.core (.regularized f) (Cache.empty f.ret) os))) := by
    rcases resolveAll vars as with _ | ds
    · rfl
    · simp only [Option.bind_some, pigroLazy]
      rcases ensureAll ds with _ | os <;> simp [detailLazy, Fun.ret]
  constructor
  · intro us hus
    obtain ⟨os, hos, hsh⟩ := key.1 us hus
    exact ⟨os, by rw [hb, hos]; rfl, hsh, hos⟩
  · intro hn
    rw [hb, key.2 hn]; rfl

theorem step_inv (g : Glue) {ts : List (Tree D W E S)} {s : State D W E S} (h : Inv ts s)
    (op : Op D W E S) : Inv (stepTrees ts op) (step g s op).2 := by
  cases op with
  | mk f deps =>
    have key := mk_tree h.shape h.lz f deps
    simp only [stepTrees, step]
    rcases ha : argTrees ts deps with _ | us
    · rw [key.2 ha]; exact h
    · obtain ⟨os, hos, hsh, _⟩ := key.1 us ha
      rw [hos]
      refine ⟨h.shape.append ?_, ?_⟩
      · simp only [ShapeL, Shape]
        exact ⟨_, [], ⟨f, _, os, rfl, Cache.empty_fits _, hsh, rfl⟩, rfl, rfl⟩
      · intro t ht
        rcases List.mem_append.1 ht with ht | ht
        · exact h.lz t ht
        · simp only [List.mem_singleton] at ht; exact ⟨_, _, ht⟩
  | copy i =>
    simp only [stepTrees, step]
    rcases ho : s.vars[i]? with _ | o
    · have : ts[i]? = none := by
        rw [List.getElem?_eq_none_iff] at ho ⊢
        rw [h.shape.length]; exact ho
      rw [this]; exact h
    · obtain ⟨h2, _⟩ := List.getElem?_eq_some_iff.1 ho
      have h1 : i < ts.length := by rw [h.shape.length]; exact h2
      have ht : ts[i]? = some ts[i] := List.getElem?_eq_getElem h1
      have hs := h.shape.get? ht ho
      rw [ht]
      refine ⟨h.shape.append ?_, ?_⟩
      · simp only [ShapeL]; exact ⟨o, [], hs, rfl, rfl⟩
      · intro t ht
        rcases List.mem_append.1 ht with ht | ht
        · exact h.lz t ht
        · simp only [List.mem_singleton] at ht; subst ht; exact h.lz _ (List.getElem_mem h1)
  | call i =>
    simp only [stepTrees, step]
    rcases ho : s.vars[i]? with _ | o
    · exact h
    · obtain ⟨h2, _⟩ := List.getElem?_eq_some_iff.1 ho
      have h1 : i < ts.length := by rw [h.shape.length]; exact h2
      have ht : ts[i]? = some ts[i] := List.getElem?_eq_getElem h1
      exact ⟨h.shape.set ht (call0_shape g _ o s.env (h.shape.get? ht ho)), h.lz⟩
  | poll i =>
    simp only [stepTrees, step]
    rcases ho : s.vars[i]? with _ | o
    · exact h
    · obtain ⟨h2, _⟩ := List.getElem?_eq_some_iff.1 ho
      have h1 : i < ts.length := by rw [h.shape.length]; exact h2
      have ht : ts[i]? = some ts[i] := List.getElem?_eq_getElem h1
      exact ⟨h.shape.set ht (evalN_shape g _ o s.env (h.shape.get? ht ho)), h.lz⟩
  | poke f => exact ⟨h.shape, h.lz⟩

theorem run_inv (g : Glue) (ops : List (Op D W E S)) : ∀ {ts : List (Tree D W E S)}
    {s : State D W E S}, Inv ts s → Inv (runTrees ts ops) (run g s ops).2 := by
  induction ops with
  | nil => intro ts s h; exact h
  | cons op ops ih => intro ts s h; exact ih (step_inv g h op)

theorem init_inv (w : W) : Inv ([] : List (Tree D W E S)) (State.init w) :=
  ⟨by simp [ShapeL, State.init], by simp⟩

theorem reach_inv (g : Glue) (w : W) (ops : List (Op D W E S)) :
    Inv (runTrees [] ops) (run g (State.init w) ops).2 :=
  run_inv g ops (init_inv w)

end Pigro
