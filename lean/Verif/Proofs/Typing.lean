import Verif.Spec.Typing
import Verif.Proofs.Fresh
/-!
# Type soundness of lazy functions
-/
namespace Pigro
variable {C D W E S : Type} [DecidableEq C]

/-- A cache of the type announced. -/
def Cache.HasTy (cls : D → C) : Cache D → STy C → Prop
  | .opt o, t => t ≠ .rvoid ∧ ∀ v, o = some v → v.type cls = t
  | .rv _, t => t = .rvoid

mutual
/-- The values of the lazy object have the given type, and all its parts are well-typed. -/
def Obj.HasTy (P : FnCode D W E S → Prop) (cls : D → C) (sig : FnSig C D W E S) : Obj D W E S → STy C → Prop
  | .lazyValue v _, t => v.type cls = t
  | .core (.regularized u) cache deps, t =>
    cache.HasTy cls t ∧ P u.toFnCode ∧ ∃ ts, Obj.HasTys P cls sig deps ts ∧ lazyType sig u.toFnCode ts = some t
  | .core (.wrapDep u) cache deps, t =>
    cache.HasTy cls t ∧ P u.toFnCode ∧ sig u.toFnCode [] = some (.val t) ∧ ∃ ts, Obj.HasTys P cls sig deps ts
  | .unwrapped inner, t => Obj.HasTy P cls sig inner t
  | .unregularized inner, t => Obj.HasTy P cls sig inner t
/-- Element-wise. -/
def Obj.HasTys (P : FnCode D W E S → Prop) (cls : D → C) (sig : FnSig C D W E S) : List (Obj D W E S) → List (STy C) → Prop
  | [], ts => ts = []
  | o :: os, ts => ∃ t ts', ts = t :: ts' ∧ Obj.HasTy P cls sig o t ∧ Obj.HasTys P cls sig os ts'
end

/-- All events so far make sense. -/
def Env.Typed (P : FnCode D W E S → Prop) (cls : D → C) (sig : FnSig C D W E S) (env : Env D W S) : Prop :=
  ∀ e ∈ env.log, e.Typed P cls sig

omit [DecidableEq C] in
theorem Val.types_eq (cls : D → C) (vs : List (Val D)) : Val.types cls vs = vs.map (Val.type cls) := by
  induction vs with
  | nil => rfl
  | cons v vs ih => simp [Val.types, ih]

omit [DecidableEq C] in
theorem types_ctad (cls : D → C) (vs : List (Val D)) :
    Val.types cls (tupleCTAD Val.asTuple vs) = tupleCTAD STy.asTuple (Val.types cls vs) := by
  match vs with
  | [] => rfl
  | [.data _] => rfl
  | [.rvoid] => rfl
  | [.tup us] => simp [tupleCTAD, Val.asTuple, Val.types, Val.type, STy.asTuple]
  | a :: b :: l => simp [tupleCTAD, Val.types]

omit [DecidableEq C] in
/-- The value `regularized_void(f)` returns has the regularized type. -/
theorem regularize_type {cls : D → C} {sig : FnSig C D W E S} {c : FnCode D W E S} (hc : c.Respects cls sig) {args : List (Val D)} {r : RTy C}
    (hs : sig c (Val.types cls args) = some r) {st : S} {w : W} {v : Val D} (hv : (c.run st args w).1 = .ok v) :
    (c.ret.regularize v).type cls = r.regularize := by
  obtain ⟨hk, ht⟩ := hc _ _ hs
  rw [hk]
  match r with
  | .void => rfl
  | .val .rvoid => rfl
  | .val (.data a) => exact ht _ rfl st args w v rfl hv
  | .val (.tup ts) => exact ht _ rfl st args w v rfl hv

theorem lazyType_some {sig : FnSig C D W E S} {f : FnCode D W E S} {ts : List (STy C)} {t : STy C} (h : lazyType sig f ts = some t) :
    ∃ r, sig f ts = some r ∧ sig f (tupleCTAD STy.asTuple ts) = some r ∧ t = r.regularize := by
  unfold lazyType at h
  split at h
  · rename_i r r' h1 h2
    split at h
    · rename_i he; subst he
      exact ⟨r, h1, h2, (Option.some.inj h).symm⟩
    · cases h
  · cases h

omit [DecidableEq C] in
theorem Cache.assign_hasTy {cls : D → C} {c : Cache D} {t : STy C} (hc : c.HasTy cls t) {v : Val D} (hv : v.type cls = t) :
    (c.assign v).HasTy cls t := by
  cases c with
  | opt o => exact ⟨hc.1, fun x hx => by cases hx; exact hv⟩
  | rv o => exact hc

omit [DecidableEq C] in
theorem Cache.deref_type {cls : D → C} {c : Cache D} {t : STy C} (hc : c.HasTy cls t) {v : Val D} (hv : c.deref = some v) : v.type cls = t := by
  cases c with
  | opt o => exact hc.2 v hv
  | rv o => cases hv; exact hc.symm

omit [DecidableEq C] in
theorem Cache.empty_hasTy (cls : D → C) (r : RTy C) : (Cache.empty r.kind : Cache D).HasTy cls r.regularize := by
  match r with
  | .void => rfl
  | .val .rvoid => rfl
  | .val (.data a) => exact ⟨by simp [RTy.regularize], by simp⟩
  | .val (.tup ts) => exact ⟨by simp [RTy.regularize], by simp⟩

variable {P : FnCode D W E S → Prop} {cls : D → C} {sig : FnSig C D W E S}

/-- What is known about a function object that is the `f` of `detail::lazy`, its dependencies' values having types `ts`. -/
def Fun.HasTy (P : FnCode D W E S → Prop) (sig : FnSig C D W E S) : Fun D W E S → List (STy C) → STy C → Prop
  | .regularized u, ts, t => P u.toFnCode ∧ lazyType sig u.toFnCode ts = some t
  | .wrapDep u, _, t => P u.toFnCode ∧ sig u.toFnCode [] = some (.val t)

theorem Obj.hasTy_core {f : Fun D W E S} {cache : Cache D} {deps : List (Obj D W E S)} {t : STy C} :
    (Obj.core f cache deps).HasTy P cls sig t ↔ cache.HasTy cls t ∧ ∃ ts, Obj.HasTys P cls sig deps ts ∧ f.HasTy P sig ts t := by
  cases f with
  | regularized u =>
    simp only [Obj.HasTy, Fun.HasTy]
    constructor
    · rintro ⟨a, b, ts, c, d⟩; exact ⟨a, ts, c, b, d⟩
    · rintro ⟨a, ts, c, b, d⟩; exact ⟨a, b, ts, c, d⟩
  | wrapDep u =>
    simp only [Obj.HasTy, Fun.HasTy]
    constructor
    · rintro ⟨a, b, d, ts, c⟩; exact ⟨a, ts, c, b, d⟩
    · rintro ⟨a, ts, c, b, d⟩; exact ⟨a, b, d, ts, c⟩

omit [DecidableEq C] in
theorem Env.typed_append {w : W} {l l' : List (Ev D S)} (h : ∀ e ∈ l, e.Typed P cls sig) (h' : ∀ e ∈ l', e.Typed P cls sig) :
    (⟨w, l ++ l'⟩ : Env D W S).Typed P cls sig := by
  intro e he
  rcases List.mem_append.1 he with h1 | h1
  · exact h e h1
  · exact h' e h1

/-- Calling the `f` of `detail::lazy` with the unpacked values of its dependencies. -/
theorem Fun.call_typed (hP : ∀ c, P c → c.Respects cls sig) (g : Glue) {f : Fun D W E S} {vs : List (Val D)} {t : STy C}
    (hf : f.HasTy P sig (Val.types cls vs) t) {env : Env D W S} (he : env.Typed P cls sig) :
    (∀ v, (f.call g (tupleCTAD Val.asTuple vs) env).1 = .ok v → v.type cls = t) ∧
      (f.call g (tupleCTAD Val.asTuple vs) env).1 ≠ .illFormed ∧
      (∀ ts, f.HasTy P sig ts t → (f.call g (tupleCTAD Val.asTuple vs) env).2.1.HasTy P sig ts t) ∧
      (f.call g (tupleCTAD Val.asTuple vs) env).2.2.Typed P cls sig := by
  cases f with
  | regularized u =>
    obtain ⟨hp, hl⟩ := hf
    obtain ⟨r, h1, h2, rfl⟩ := lazyType_some hl
    rw [← types_ctad] at h2
    have hev : ∀ e ∈ (u.invoke .fn (tupleCTAD Val.asTuple vs) env).2.2.log, e.Typed P cls sig := by
      refine Env.typed_append (w := env.w) he fun e h => ?_
      rw [List.mem_singleton] at h
      subst h
      exact ⟨u.toFnCode, hp, rfl, by rw [h2]; simp⟩
    have hval := fun v hv => regularize_type (hP _ hp) h2 (st := u.st) (w := env.w) (v := v) hv
    simp only [Fun.call, UFn.invoke] at hev ⊢
    cases hr : (u.run u.st (tupleCTAD Val.asTuple vs) env.w).1 with
    | ok v =>
      refine ⟨fun v' h => by cases h; exact hval v hr, by simp, fun ts h => ?_, hev⟩
      cases hg : g.regParamByValue <;> exact h
    | error e =>
      refine ⟨fun v' h => by simp at h, by simp, fun ts h => ?_, hev⟩
      cases hg : g.regParamByValue <;> exact h
  | wrapDep u =>
    obtain ⟨hp, h2⟩ := hf
    have h2' : sig u.toFnCode (Val.types cls []) = some (.val t) := h2
    have hev : ∀ e ∈ (u.invoke .dep [] env).2.2.log, e.Typed P cls sig := by
      refine Env.typed_append (w := env.w) he fun e h => ?_
      rw [List.mem_singleton] at h
      subst h
      exact ⟨u.toFnCode, hp, rfl, by rw [h2']; simp⟩
    have hval := fun v hv => regularize_type (hP _ hp) h2' (st := u.st) (w := env.w) (v := v) hv
    simp only [Fun.call, UFn.invoke] at hev ⊢
    cases hr : (u.run u.st [] env.w).1 with
    | ok v =>
      refine ⟨fun v' h => by cases h; exact hval v hr, by simp, fun ts h => ?_, hev⟩
      cases hg : g.wrapParamByValue <;> exact h
    | error e =>
      refine ⟨fun v' h => by simp at h, by simp, fun ts h => ?_, hev⟩
      cases hg : g.wrapParamByValue <;> exact h

omit [DecidableEq C] in
theorem cmpEvents_typed {cache : Cache D} {t : STy C} (hc : cache.HasTy cls t) {v : Val D} (hv : v.type cls = t) :
    ∀ e ∈ (cmpEvents cache v : List (Ev D S)), e.Typed P cls sig := by
  intro e he
  unfold cmpEvents at he
  split at he
  · rename_i c
    rw [List.mem_singleton] at he
    subst he
    exact (hc.2 c rfl).trans hv.symm
  · cases he

variable [CxxData D]

/-- The closure of `detail::lazy` after its dependencies. -/
theorem coreTail_typed (hP : ∀ c, P c → c.Respects cls sig) (g : Glue) {f : Fun D W E S} {cache : Cache D} {rs : List (LazyRes D)} {ts : List (STy C)}
    {t : STy C} (hc : cache.HasTy cls t) (hrs : Val.types cls (rs.map (·.value)) = ts) (hf : f.HasTy P sig ts t)
    {env : Env D W S} (he : env.Typed P cls sig) :
    (∀ r, (coreTail g f cache rs env).1 = .ok r → r.value.type cls = t) ∧ (coreTail g f cache rs env).1 ≠ .illFormed ∧
      (coreTail g f cache rs env).2.1.HasTy P sig ts t ∧ (coreTail g f cache rs env).2.2.1.HasTy cls t ∧
      (coreTail g f cache rs env).2.2.2.Typed P cls sig := by
  subst hrs
  unfold coreTail
  dsimp only
  split
  · unfold readValues
    split
    · rename_i values hv
      split at hv
      · cases hv
      · exact ⟨fun r h => by simp at h, by simp, hf, hc, he⟩
    · rename_i values hv
      split at hv
      · cases hv
        rw [transform_eq]
        obtain ⟨a, b, c, d⟩ := Fun.call_typed hP g hf he
        generalize f.call g (tupleCTAD Val.asTuple (rs.map LazyRes.value)) env = q at a b c d
        obtain ⟨o, f', env'⟩ := q
        match o with
        | .ok v =>
          have hv := a v rfl
          dsimp only
          split
          · rename_i v' hd
            refine ⟨fun r h => by cases h; exact Cache.deref_type (Cache.assign_hasTy hc hv) hd, by simp, c _ hf, Cache.assign_hasTy hc hv, ?_⟩
            exact Env.typed_append (w := env'.w) d (cmpEvents_typed hc hv)
          · exact ⟨fun r h => by simp at h, by simp, c _ hf, Cache.assign_hasTy hc hv, d⟩
        | .thrown e => exact ⟨fun r h => by simp [Out.map] at h, by simp [Out.map], c _ hf, hc, d⟩
        | .ub => exact ⟨fun r h => by simp [Out.map] at h, by simp [Out.map], c _ hf, hc, d⟩
        | .illFormed => exact absurd rfl b
      · cases hv
  · split
    · rename_i v hd
      exact ⟨fun r h => by cases h; exact Cache.deref_type hc hd, by simp, hf, hc, he⟩
    · exact ⟨fun r h => by simp at h, by simp, hf, hc, he⟩

mutual
/-- Calling a well-typed lazy object with `nullptr`. -/
theorem evalN_typed (hP : ∀ c, P c → c.Respects cls sig) (g : Glue) : ∀ (o : Obj D W E S) (t : STy C), o.HasTy P cls sig t → ∀ (env : Env D W S),
    env.Typed P cls sig →
    (∀ r, (evalN g o env).1 = .ok r → r.value.type cls = t) ∧ (evalN g o env).1 ≠ .illFormed ∧ (evalN g o env).2.1.HasTy P cls sig t ∧
      (evalN g o env).2.2.Typed P cls sig
  | .lazyValue v c, t, h, env, he => by
    simp only [evalN]
    exact ⟨fun r hr => by cases hr; exact h, by simp, h, he⟩
  | .core f cache deps, t, h, env, he => by
    obtain ⟨hc, ts, hd, hf⟩ := Obj.hasTy_core.1 h
    obtain ⟨a, b, c, d⟩ := evalDeps_typed hP g deps ts hd env he
    simp only [evalN]
    generalize evalDeps g deps env = q at a b c d
    obtain ⟨o, deps', env1⟩ := q
    have keepD : Obj.HasTys P cls sig (keep g.coreParamsByValue deps deps') ts := by
      cases g.coreParamsByValue
      · exact c
      · exact hd
    match o with
    | .ok rs =>
      obtain ⟨a', b', c', d', e'⟩ := coreTail_typed hP g hc (a rs rfl) hf d
      dsimp only
      generalize coreTail g f cache rs env1 = q' at a' b' c' d' e'
      obtain ⟨o', f', cache', env2⟩ := q'
      refine ⟨a', b', Obj.hasTy_core.2 ⟨?_, ts, keepD, ?_⟩, e'⟩
      · cases g.bindFrontCopies
        · exact d'
        · exact hc
      · cases g.coreParamsByValue
        · exact c'
        · exact hf
    | .thrown e => exact ⟨fun r h => by simp [Out.map] at h, by simp [Out.map], Obj.hasTy_core.2 ⟨hc, ts, keepD, hf⟩, d⟩
    | .ub => exact ⟨fun r h => by simp [Out.map] at h, by simp [Out.map], Obj.hasTy_core.2 ⟨hc, ts, keepD, hf⟩, d⟩
    | .illFormed => exact absurd rfl b
  | .unwrapped inner, t, h, env, he => by
    obtain ⟨a, b, c, d⟩ := evalN_typed hP g inner t h env he
    simp only [evalN]
    generalize evalN g inner env = q at a b c d
    obtain ⟨o, inner', env'⟩ := q
    refine ⟨fun r hr => ?_, ?_, ?_, d⟩
    · match o with
      | .ok r' => cases hr; exact a r' rfl
      | .thrown e => simp [Out.map] at hr
      | .ub => simp [Out.map] at hr
      | .illFormed => simp [Out.map] at hr
    · cases o <;> simp_all [Out.map]
    · simp only [Obj.HasTy]
      cases g.unwrapParamByValue
      · exact c
      · exact h
  | .unregularized inner, t, h, env, he => by
    obtain ⟨a, b, c, d⟩ := evalN_typed hP g inner t h env he
    simp only [evalN]
    generalize evalN g inner env = q at a b c d
    obtain ⟨o, inner', env'⟩ := q
    refine ⟨fun r hr => ?_, ?_, ?_, d⟩
    · match o with
      | .ok r' => cases hr; exact a r' rfl
      | .thrown e => simp [Out.map] at hr
      | .ub => simp [Out.map] at hr
      | .illFormed => simp [Out.map] at hr
    · cases o <;> simp_all [Out.map]
    · simp only [Obj.HasTy]
      cases g.facadeParamByValue
      · exact c
      · exact h
/-- Calling all dependencies. -/
theorem evalDeps_typed (hP : ∀ c, P c → c.Respects cls sig) (g : Glue) : ∀ (os : List (Obj D W E S)) (ts : List (STy C)), Obj.HasTys P cls sig os ts →
    ∀ (env : Env D W S), env.Typed P cls sig →
    (∀ rs, (evalDeps g os env).1 = .ok rs → Val.types cls (rs.map (·.value)) = ts) ∧ (evalDeps g os env).1 ≠ .illFormed ∧
      Obj.HasTys P cls sig (evalDeps g os env).2.1 ts ∧ (evalDeps g os env).2.2.Typed P cls sig
  | [], ts, h, env, he => by
    simp only [Obj.HasTys] at h
    subst h
    simp only [evalDeps]
    exact ⟨fun rs h => by cases h; rfl, by simp, rfl, he⟩
  | o :: os, ts, h, env, he => by
    simp only [Obj.HasTys] at h
    obtain ⟨t, ts', rfl, ho, hos⟩ := h
    obtain ⟨a, b, c, d⟩ := evalN_typed hP g o t ho env he
    simp only [evalDeps]
    generalize evalN g o env = q at a b c d
    obtain ⟨r, o', env1⟩ := q
    match r with
    | .ok r =>
      obtain ⟨a', b', c', d'⟩ := evalDeps_typed hP g os ts' hos env1 d
      dsimp only
      generalize evalDeps g os env1 = q' at a' b' c' d'
      obtain ⟨r', os', env2⟩ := q'
      refine ⟨fun rs hr => ?_, ?_, ⟨t, ts', rfl, c, c'⟩, d'⟩
      · match r' with
        | .ok rs' =>
          cases hr
          simp only [List.map_cons, Val.types, a r rfl, a' rs' rfl]
        | .thrown e => simp [Out.map] at hr
        | .ub => simp [Out.map] at hr
        | .illFormed => simp [Out.map] at hr
      · cases r' <;> simp_all [Out.map]
    | .thrown e => exact ⟨fun rs hr => by simp [Out.map] at hr, by simp [Out.map], ⟨t, ts', rfl, c, hos⟩, d⟩
    | .ub => exact ⟨fun rs hr => by simp [Out.map] at hr, by simp [Out.map], ⟨t, ts', rfl, c, hos⟩, d⟩
    | .illFormed => exact absurd rfl b
end

/-- A variable of a client program: made by `pigro::lazy`, with values of type `t`. -/
def Obj.VarTy (P : FnCode D W E S → Prop) (cls : D → C) (sig : FnSig C D W E S) (o : Obj D W E S) (t : STy C) : Prop :=
  (∃ f cache deps, o = .unregularized (.unwrapped (.core f cache deps))) ∧ o.HasTy P cls sig t

theorem evalN_varTy (hP : ∀ c, P c → c.Respects cls sig) (g : Glue) {o : Obj D W E S} {t : STy C} (h : o.VarTy P cls sig t) {env : Env D W S}
    (he : env.Typed P cls sig) : (evalN g o env).2.1.VarTy P cls sig t := by
  refine ⟨?_, (evalN_typed hP g o t h.2 env he).2.2.1⟩
  obtain ⟨⟨f, cache, deps, rfl⟩, -⟩ := h
  simp only [evalN]
  split <;> cases g.facadeParamByValue <;> cases g.unwrapParamByValue <;> exact ⟨_, _, _, rfl⟩

omit [CxxData D] in
theorem Obj.valueIsRV_typed {o : Obj D W E S} {t : STy C} (h : o.VarTy P cls sig t) : o.valueIsRV = true ↔ t = .rvoid := by
  obtain ⟨⟨f, cache, deps, rfl⟩, h⟩ := h
  simp only [Obj.HasTy] at h
  obtain ⟨hc, -⟩ := Obj.hasTy_core.1 h
  cases cache with
  | opt o => simp [Obj.valueIsRV, hc.1]
  | rv o => simp only [Obj.valueIsRV, true_iff]; exact hc

/-- Calling a variable without arguments. -/
theorem call0_typed (hP : ∀ c, P c → c.Respects cls sig) (g : Glue) {o : Obj D W E S} {t : STy C} (h : o.VarTy P cls sig t) {env : Env D W S}
    (he : env.Typed P cls sig) :
    (call0 g o env).1 ≠ .illFormed ∧ (∀ v, (call0 g o env).1 = .ok (some v) → v.type cls = t ∧ t ≠ .rvoid) ∧
      ((call0 g o env).1 = .ok none → t = .rvoid) ∧ (call0 g o env).2.1.VarTy P cls sig t ∧ (call0 g o env).2.2.Typed P cls sig := by
  have hrv := Obj.valueIsRV_typed h
  obtain ⟨⟨f, cache, deps, rfl⟩, h⟩ := h
  have h' : (Obj.unwrapped (.core f cache deps)).HasTy P cls sig t := h
  obtain ⟨a, b, c, d⟩ := evalN_typed hP g _ t h' env he
  have shape : ∃ f' cache' deps', (evalN g (.unwrapped (.core f cache deps)) env).2.1 = .unwrapped (.core f' cache' deps') := by
    simp only [evalN]
    split <;> cases g.unwrapParamByValue <;> exact ⟨_, _, _, rfl⟩
  simp only [call0]
  generalize evalN g (.unwrapped (.core f cache deps)) env = q at a b c d shape
  obtain ⟨r, o', env'⟩ := q
  obtain ⟨f', cache', deps', rfl⟩ := shape
  have hvar : (Obj.unregularized (keep g.facadeParamByValue (.unwrapped (.core f cache deps)) (.unwrapped (.core f' cache' deps')))).VarTy P cls sig t := by
    cases g.facadeParamByValue
    · exact ⟨⟨_, _, _, rfl⟩, c⟩
    · exact ⟨⟨_, _, _, rfl⟩, h⟩
  have hrv' : (Obj.unwrapped (.core f cache deps)).valueIsRV = true ↔ t = .rvoid := hrv
  match r with
  | .ok r =>
    dsimp only
    cases r.live with
    | false => exact ⟨by simp [Out.map], fun v hv => by simp [Out.map] at hv, fun hv => by simp [Out.map] at hv, hvar, d⟩
    | true =>
      by_cases ht : t = .rvoid
      · have := hrv'.2 ht
        refine ⟨by simp [Out.map], fun v hv => ?_, fun _ => ht, hvar, d⟩
        simp [Out.map, this] at hv
      · have : (Obj.unwrapped (.core f cache deps)).valueIsRV = false := by
          cases hb : (Obj.unwrapped (.core f cache deps)).valueIsRV
          · rfl
          · exact absurd (hrv'.1 hb) ht
        refine ⟨by simp [Out.map], fun v hv => ?_, fun hv => ?_, hvar, d⟩
        · simp only [Out.map, this] at hv
          cases hv
          exact ⟨a r rfl, ht⟩
        · simp [Out.map, this] at hv
  | .thrown e => exact ⟨by simp [Out.map], fun v hv => by simp [Out.map] at hv, fun hv => by simp [Out.map] at hv, hvar, d⟩
  | .ub => exact ⟨by simp [Out.map], fun v hv => by simp [Out.map] at hv, fun hv => by simp [Out.map] at hv, hvar, d⟩
  | .illFormed => exact absurd rfl b

/-- All variables are well-typed. -/
def State.Typed (P : FnCode D W E S → Prop) (cls : D → C) (sig : FnSig C D W E S) (s : State D W E S) (Γ : List (STy C)) : Prop :=
  s.vars.length = Γ.length ∧ (∀ (i : Nat) (o : Obj D W E S) (t : STy C), s.vars[i]? = some o → Γ[i]? = some t → o.VarTy P cls sig t) ∧ s.env.Typed P cls sig

omit [CxxData D] in
theorem State.typed_get {s : State D W E S} {Γ : List (STy C)} (h : s.Typed P cls sig Γ) {i : Nat} {t : STy C} (ht : Γ[i]? = some t) :
    ∃ o, s.vars[i]? = some o ∧ o.VarTy P cls sig t := by
  obtain ⟨hi, -⟩ := List.getElem?_eq_some_iff.1 ht
  rw [← h.1] at hi
  exact ⟨_, List.getElem?_eq_getElem hi, h.2.1 i _ t (List.getElem?_eq_getElem hi) ht⟩

omit [CxxData D] in
theorem State.typed_push {s : State D W E S} {Γ : List (STy C)} (h : s.Typed P cls sig Γ) {o : Obj D W E S} {t : STy C} (ho : o.VarTy P cls sig t) :
    ({ s with vars := s.vars ++ [o] } : State D W E S).Typed P cls sig (Γ ++ [t]) := by
  refine ⟨by simp [h.1], fun i o' t' h1 h2 => ?_, h.2.2⟩
  dsimp only at h1
  rw [List.getElem?_append] at h1 h2
  rw [h.1] at h1
  split at h1
  · rename_i hi
    rw [if_pos hi] at h2
    exact h.2.1 i o' t' h1 h2
  · rename_i hi
    rw [if_neg hi] at h2
    rw [List.getElem?_singleton] at h1 h2
    split at h1
    · rename_i h0
      rw [if_pos h0] at h2
      cases h1; cases h2; exact ho
    · cases h1

omit [CxxData D] in
theorem State.typed_set {s : State D W E S} {Γ : List (STy C)} (h : s.Typed P cls sig Γ) {i : Nat} {o : Obj D W E S} {t : STy C} (ht : Γ[i]? = some t)
    (ho : o.VarTy P cls sig t) {env : Env D W S} (he : env.Typed P cls sig) : (⟨s.vars.set i o, env⟩ : State D W E S).Typed P cls sig Γ := by
  refine ⟨by simp [h.1], fun j o' t' h1 h2 => ?_, he⟩
  rw [List.getElem?_set] at h1
  split at h1
  · rename_i hij
    subst hij
    split at h1
    · cases h1; rw [ht] at h2; cases h2; exact ho
    · cases h1
  · exact h.2.1 j o' t' h1 h2

/-- The dependencies of `pigro::lazy` compile to objects of the types computed. -/
theorem deps_typed (hP : ∀ c, P c → c.Respects cls sig) {s : State D W E S} {Γ : List (STy C)} (h : s.Typed P cls sig Γ) :
    ∀ (deps : List (ArgRef D W E S)), (∀ u, ArgRef.function u ∈ deps → P u.toFnCode) → ∀ ts, ArgRef.types cls sig Γ deps = some ts →
    ∃ as os, resolveAll s.vars deps = some as ∧ ensureAll as = some os ∧ Obj.HasTys P cls sig os ts
  | [], _, ts, ht => by
    cases ht
    exact ⟨[], [], rfl, rfl, rfl⟩
  | d :: ds, hd, ts, ht => by
    simp only [ArgRef.types] at ht
    split at ht
    · rename_i t ts' h1 h2
      cases ht
      obtain ⟨as, os, ha, ho, hts⟩ := deps_typed hP h ds (fun u hu => hd u (List.mem_cons_of_mem _ hu)) ts' h2
      have key : ∃ a o, d.resolve s.vars = some a ∧ ensureLazy a = some o ∧ o.HasTy P cls sig t := by
        cases d with
        | value v =>
          cases h1
          exact ⟨_, _, rfl, rfl, rfl⟩
        | function u =>
          have hp := hd u (List.mem_cons_self ..)
          simp only [ArgRef.type] at h1
          split at h1
          · rename_i t' hs
            cases h1
            have hk := ((hP _ hp) _ _ hs).1
            refine ⟨_, detailLazy (.wrapDep u) [.lazyValue (.data CxxData.zero) true], rfl, ?_, ?_⟩
            · have hne : u.ret ≠ .void := by
                rw [hk]
                cases t <;> simp [RTy.kind]
              simp only [ensureLazy]
              simp only [DepArg.caps]
              rw [show ensureSelect ⟨false, true⟩ = some .poll from rfl]
              simp [hne]
            · refine Obj.hasTy_core.2 ⟨?_, [_], ⟨_, [], rfl, rfl, rfl⟩, hp, hs⟩
              simp only [Fun.ret, hk]
              exact Cache.empty_hasTy cls (.val t)
          · cases h1
        | var i =>
          obtain ⟨o, hi, hv⟩ := State.typed_get h h1
          refine ⟨.lazyObj o, o, by simp [ArgRef.resolve, hi], ?_, hv.2⟩
          obtain ⟨⟨f, c, ds, rfl⟩, -⟩ := hv
          rfl
      obtain ⟨a, o, h3, h4, h5⟩ := key
      exact ⟨a :: as, o :: os, by simp [resolveAll, h3, ha], by simp [ensureAll, h4, ho], t, ts', rfl, h5, hts⟩
    · cases ht

/-- One operation of a program. -/
theorem step_typed (hP : ∀ c, P c → c.Respects cls sig) (g : Glue) {s : State D W E S} {Γ Γ' : List (STy C)} (h : s.Typed P cls sig Γ)
    (op : Op D W E S) (hop : ∀ c ∈ op.fns, P c) (hc : op.check cls sig Γ = some Γ') :
    (step g s op).1.Typed cls Γ op ∧ (step g s op).2.Typed P cls sig Γ' := by
  cases op with
  | mk f deps =>
    simp only [Op.check] at hc
    split at hc
    · cases hc
    · rename_i ts hts
      split at hc
      · cases hc
      · rename_i t ht
        cases hc
        obtain ⟨as, os, ha, ho, hty⟩ := deps_typed hP h deps (fun u hu => hop _ (by
          refine List.mem_cons_of_mem _ (List.mem_filterMap.2 ⟨_, hu, rfl⟩))) ts hts
        have hf : P f.toFnCode := hop _ (List.mem_cons_self ..)
        have hmk : (resolveAll s.vars deps).bind (pigroLazy f) = some (.unregularized (.unwrapped (detailLazy (.regularized f) os))) := by
          simp [ha, pigroLazy, ho]
        simp only [step, hmk]
        refine ⟨trivial, State.typed_push h ⟨⟨_, _, _, rfl⟩, ?_⟩⟩
        simp only [Obj.HasTy, detailLazy]
        refine ⟨?_, hf, ts, hty, ht⟩
        obtain ⟨r, h1, -, rfl⟩ := lazyType_some ht
        simp only [Fun.ret, (hP _ hf _ _ h1).1]
        exact Cache.empty_hasTy cls r
  | copy i =>
    simp only [Op.check] at hc
    cases ht : Γ[i]? with
    | none => simp [ht] at hc
    | some t =>
      simp only [ht, Option.map_some, Option.some.injEq] at hc
      subst hc
      obtain ⟨o, hi, hv⟩ := State.typed_get h ht
      simp only [step, hi]
      exact ⟨trivial, State.typed_push h hv⟩
  | call i =>
    simp only [Op.check] at hc
    split at hc
    · rename_i hi
      cases hc
      have ht : Γ[i]? = some Γ[i] := List.getElem?_eq_getElem hi
      obtain ⟨o, ho, hv⟩ := State.typed_get h ht
      obtain ⟨a, b, c, d, e⟩ := call0_typed hP g hv h.2.2
      simp only [step, ho]
      refine ⟨⟨a, fun v hv => ?_, fun hv => ?_⟩, State.typed_set h ht d e⟩
      · obtain ⟨h1, h2⟩ := b v hv
        rw [h1]
        exact ⟨ht, h2⟩
      · rw [ht, c hv]
    · cases hc
  | poll i =>
    simp only [Op.check] at hc
    split at hc
    · rename_i hi
      cases hc
      have ht : Γ[i]? = some Γ[i] := List.getElem?_eq_getElem hi
      obtain ⟨o, ho, hv⟩ := State.typed_get h ht
      obtain ⟨a, b, c, d⟩ := evalN_typed hP g o _ hv.2 s.env h.2.2
      simp only [step, ho]
      refine ⟨⟨b, fun r hr => ?_⟩, State.typed_set h ht (evalN_varTy hP g hv h.2.2) d⟩
      rw [a r hr]
      exact ht
    · cases hc
  | poke w =>
    cases hc
    exact ⟨trivial, h.1, h.2.1, h.2.2⟩

/-- A whole program. -/
theorem run_typed (hP : ∀ c, P c → c.Respects cls sig) (g : Glue) : ∀ (ops : List (Op D W E S)) (s : State D W E S) (Γ Γ' : List (STy C)),
    s.Typed P cls sig Γ → (∀ op ∈ ops, ∀ c ∈ op.fns, P c) → checkAll cls sig Γ ops = some Γ' → (run g s ops).2.Typed P cls sig Γ'
  | [], s, Γ, Γ', h, _, hc => by cases hc; exact h
  | op :: ops, s, Γ, Γ', h, hf, hc => by
    simp only [checkAll] at hc
    split at hc
    · cases hc
    · rename_i Γ1 h1
      exact run_typed hP g ops _ Γ1 Γ' (step_typed hP g h op (hf op (List.mem_cons_self ..)) h1).2
        (fun o ho => hf o (List.mem_cons_of_mem _ ho)) hc

end Pigro
