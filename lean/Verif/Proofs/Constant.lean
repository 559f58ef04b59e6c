import Verif.Proofs.LazyMore
import Verif.Proofs.OneCall
/-!
# Lazy objects that no longer change
-/
namespace Pigro
variable {D W E S : Type}

mutual
/-- Every cache in the object is filled and nothing in it reports a change by itself. -/
def Obj.Settled : Obj D W E S → Prop
  | .lazyValue _ c => c = false
  | .core _ cache deps => (∃ v, cache.val? = some v) ∧ SettledL deps
  | .unwrapped i => i.Settled
  | .unregularized i => i.Settled
/-- All of them. -/
def SettledL : List (Obj D W E S) → Prop
  | [] => True
  | d :: ds => d.Settled ∧ SettledL ds
end

variable [CxxData D]

mutual
/-- A settled object returns always the same, and leaves itself and the environment as they are. -/
theorem settled_evalN (g : Glue) : ∀ o : Obj D W E S, o.Settled →
    ∃ r, r.isChanged = false ∧ o.lastVal = some r.value ∧ ∀ env, evalN g o env = (.ok r, o, env)
  | .lazyValue v c, h => ⟨⟨v, c, !(g.resultByRef && g.valueParamByValue)⟩, h, rfl, fun env => by simp only [evalN]⟩
  | .core f cache deps, h => by
    simp only [Obj.Settled] at h
    obtain ⟨⟨v, hv⟩, hd⟩ := h
    obtain ⟨rs, h1, h2⟩ := settled_evalDeps g deps hd
    refine ⟨⟨v, false, g.coreLive cache⟩, rfl, hv, fun env => ?_⟩
    rw [evalN_core_ok g f cache deps env (h2 env), coreTail_skip g f cache rs env v h1 hv]
    simp
  | .unwrapped i, h => by
    obtain ⟨r, h1, h3, h2⟩ := settled_evalN g i (by simpa only [Obj.Settled] using h)
    exact ⟨r.through (g.resultByRef && g.unwrapParamByValue), h1, h3, fun env => by simp [evalN_unwrapped, h2 env, Out.map]⟩
  | .unregularized i, h => by
    obtain ⟨r, h1, h3, h2⟩ := settled_evalN g i (by simpa only [Obj.Settled] using h)
    exact ⟨r.through (g.resultByRef && g.facadeParamByValue), h1, h3, fun env => by simp [evalN_unregularized, h2 env, Out.map]⟩
theorem settled_evalDeps (g : Glue) : ∀ ds : List (Obj D W E S), SettledL ds →
    ∃ rs, any LazyRes.isChanged rs = false ∧ ∀ env, evalDeps g ds env = (.ok rs, ds, env)
  | [], _ => ⟨[], rfl, fun env => by simp [evalDeps]⟩
  | d :: ds, h => by
    simp only [SettledL] at h
    obtain ⟨r, h1, _, h2⟩ := settled_evalN g d h.1
    obtain ⟨rs, h3, h4⟩ := settled_evalDeps g ds h.2
    refine ⟨r :: rs, ?_, fun env => by simp [evalDeps, h2 env, h4 env, Out.map]⟩
    rw [any_eq] at h3 ⊢
    simp [h1, h3]
end

mutual
/-- Evaluating an object without plain functions settles it. -/
theorem evalN_settles (g : Glue) (hg : g.Retains) : ∀ (t : Tree D W E S) (o : Obj D W E S) (env : Env D W S), Shape t o → t.leafIds = [] →
    ∀ r o' env', evalN g o env = (.ok r, o', env') → o'.Settled ∧ o'.lastVal = some r.value
  | .value v, o, env, h, _, r, o', env', he => by
    simp only [Shape] at h
    subst h
    simp only [evalN, Prod.mk.injEq, Out.ok.injEq] at he
    obtain ⟨rfl, rfl, _⟩ := he
    simp [Obj.Settled, Obj.lastVal]
  | .function c, _, _, _, hl, _, _, _, _ => by simp [Tree.leafIds] at hl
  | .lazy c ts, o, env, h, hl, r, o', env', he => by
    simp only [Shape] at h
    obtain ⟨u, cache, ds, rfl, hf, hds, rfl⟩ := h
    obtain ⟨g1, g2, g3, g4⟩ := hg
    rw [evalN_facade] at he
    have hl' : ∀ t ∈ ts, t.leafIds = [] := by
      simpa [Tree.leafIds] using hl
    rcases hd : evalDeps g ds env with ⟨p, ds', env1⟩
    cases p with
    | ok rs =>
      have hsd := evalDeps_settles g ⟨g1, g2, g3, g4⟩ ts ds env hds hl' rs ds' env1 hd
      rw [evalN_core_ok g _ cache ds env hd] at he
      simp only [g1, g2, g3, g4, Bool.or_self, keep_false, Prod.mk.injEq] at he
      obtain ⟨h1, h2, h3⟩ := he
      subst h2
      simp only [Obj.Settled, Obj.lastVal]
      suffices hv : (coreTail g (.regularized u) cache rs env1).2.2.1.val? = some r.value from ⟨⟨⟨_, hv⟩, hsd⟩, hv⟩
      clear h3
      by_cases hc : (!cache.engaged || any LazyRes.isChanged rs) = true
      · cases hr : readValues rs with
        | none => simp [coreTail, hc, hr, Out.map] at h1
        | some args =>
          rcases hi : u.run u.st args env1.w with ⟨q, st', w'⟩
          cases q with
          | error e => simp [coreTail, hc, hr, Fun.call, UFn.invoke, hi, Out.map] at h1
          | ok x =>
            have hcall : Fun.call g (.regularized u) args env1 = (.ok (u.ret.regularize x), .regularized (keep g.regParamByValue u { u with st := st' }),
                { w := w', log := env1.log ++ [.call .fn u.id args u.st st'] }) := by
              simp [Fun.call, UFn.invoke, hi]
            rw [coreTail_run g _ _ cache rs env1 _ args u.ret x hc hr hcall hf] at h1 ⊢
            simp only [Out.map, Out.ok.injEq] at h1
            rw [← h1]
            exact Cache.assign_val? hf x
      · simp only [Bool.or_eq_true, not_or, Bool.not_eq_true, Bool.not_eq_false'] at hc
        rw [Cache.engaged_val?, Option.isSome_iff_exists] at hc
        obtain ⟨⟨v, hv⟩, hc⟩ := hc
        rw [coreTail_skip g _ cache rs env1 v hc hv] at h1 ⊢
        simp only [Out.map, Out.ok.injEq] at h1
        rw [← h1]
        exact hv
    | _ =>
      rw [evalN_core_fail g _ cache ds env hd rfl] at he
      simp [Out.map] at he
theorem evalDeps_settles (g : Glue) (hg : g.Retains) : ∀ (ts : List (Tree D W E S)) (ds : List (Obj D W E S)) (env : Env D W S), ShapeL ts ds →
    (∀ t ∈ ts, t.leafIds = []) → ∀ rs ds' env', evalDeps g ds env = (.ok rs, ds', env') → SettledL ds'
  | [], ds, env, h, _, rs, ds', env', he => by
    simp only [ShapeL] at h
    subst h
    simp only [evalDeps, Prod.mk.injEq] at he
    obtain ⟨_, rfl, _⟩ := he
    simp [SettledL]
  | t :: ts, ds, env, h, hl, rs, ds', env', he => by
    simp only [ShapeL] at h
    obtain ⟨d, es, hd, hes, rfl⟩ := h
    rw [evalDeps] at he
    rcases h1 : evalN g d env with ⟨p, d', env1⟩
    rw [h1] at he
    cases p with
    | ok r =>
      rcases h2 : evalDeps g es env1 with ⟨q, es', env2⟩
      simp only [h2, Prod.mk.injEq] at he
      obtain ⟨h3, rfl, rfl⟩ := he
      cases q <;> simp [Out.map] at h3
      simp only [SettledL]
      exact ⟨(evalN_settles g hg t d env hd (hl t (by simp)) r d' env1 h1).1,
        evalDeps_settles g hg ts es env1 hes (fun t ht => hl t (by simp [ht])) _ es' env2 h2⟩
    | _ => simp [Out.map] at he
end

/-- A settled variable stays as it is, whatever the program does. -/
theorem settled_run (g : Glue) (i : Nat) (o : Obj D W E S) (ho : (Obj.unregularized (.unwrapped o)).Settled) (ops : List (Op D W E S)) :
    ∀ s : State D W E S, s.vars[i]? = some (.unregularized (.unwrapped o)) → (run g s ops).2.vars[i]? = some (.unregularized (.unwrapped o)) := by
  induction ops with
  | nil => intro s h; exact h
  | cons op ops ih =>
    intro s h
    refine ih _ ?_
    by_cases hop : op.evaluates i
    · obtain ⟨r, _, _, hr⟩ := settled_evalN g o (by simpa only [Obj.Settled] using ho)
      obtain ⟨_, _, _, hr'⟩ := settled_evalN g _ ho
      cases op with
      | call j =>
        simp only [Op.evaluates] at hop
        subst hop
        rw [step_call g s _ _ h, call0_facade, hr]
        simpa using set_get _ _ _ _ h
      | poll j =>
        simp only [Op.evaluates] at hop
        subst hop
        rw [step_poll g s _ _ h, hr']
        simpa using set_get _ _ _ _ h
      | _ => simp [Op.evaluates] at hop
    · exact step_frame g s op i _ h hop

/-! ### A dependency that no longer changes -/

/-- The evaluation of one of several dependencies. -/
theorem evalDeps_nth (g : Glue) : ∀ (ts : List (Tree D W E S)) (ds : List (Obj D W E S)) (env : Env D W S), ShapeL ts ds → ∀ rs ds' env',
    evalDeps g ds env = (.ok rs, ds', env') → ∀ (k : Nat) (t : Tree D W E S), ts[k]? = some t →
    ∃ d r d' e e', rs[k]? = some r ∧ ds'[k]? = some d' ∧ Shape t d ∧ ds[k]? = some d ∧ evalN g d e = (.ok r, d', e')
  | [], _, _, _, _, _, _, _, k, t, ht => by simp at ht
  | t :: ts, ds, env, h, rs, ds', env', he, k, u, hu => by
    simp only [ShapeL] at h
    obtain ⟨d, es, hd, hes, rfl⟩ := h
    rw [evalDeps] at he
    rcases h1 : evalN g d env with ⟨p, d', env1⟩
    rw [h1] at he
    cases p with
    | ok r =>
      rcases h2 : evalDeps g es env1 with ⟨q, es', env2⟩
      simp only [h2, Prod.mk.injEq] at he
      obtain ⟨h3, rfl, rfl⟩ := he
      cases q with
      | ok qs =>
        simp only [Out.map, Out.ok.injEq] at h3
        subst h3
        cases k with
        | zero =>
          simp only [List.getElem?_cons_zero, Option.some.injEq] at hu
          subst hu
          exact ⟨d, r, d', env, env1, rfl, rfl, hd, rfl, h1⟩
        | succ k =>
          simp only [List.getElem?_cons_succ] at hu ⊢
          exact evalDeps_nth g ts es env1 hes qs es' env2 h2 k u hu
      | _ => simp [Out.map] at h3
    | _ => simp [Out.map] at he

/-- A settled dependency stays as it is. -/
theorem evalDeps_keeps (g : Glue) : ∀ (ds : List (Obj D W E S)) (env : Env D W S) (k : Nat) (d : Obj D W E S), ds[k]? = some d → d.Settled →
    (evalDeps g ds env).2.1[k]? = some d
  | [], _, _, _, h, _ => by simp at h
  | a :: ds, env, k, d, h, hd => by
    rw [evalDeps]
    rcases h1 : evalN g a env with ⟨p, a', env1⟩
    cases k with
    | zero =>
      simp only [List.getElem?_cons_zero, Option.some.injEq] at h
      subst h
      obtain ⟨r, _, _, hr⟩ := settled_evalN g a hd
      rw [hr env] at h1
      cases h1
      simp
    | succ k =>
      simp only [List.getElem?_cons_succ] at h
      have ih := evalDeps_keeps g ds env1 k d h hd
      cases p <;> simp [h, ih]

/-- The same inside a lazy object. -/
theorem evalN_keeps (g : Glue) (f : Fun D W E S) (cache : Cache D) (ds : List (Obj D W E S)) (env : Env D W S) (k : Nat) (d : Obj D W E S)
    (h : ds[k]? = some d) (hd : d.Settled) :
    ∃ f' cache' ds', (evalN g (.core f cache ds) env).2.1 = .core f' cache' ds' ∧ ds'[k]? = some d := by
  have h1 := evalDeps_keeps g ds env k d h hd
  obtain ⟨rs, env1, h2 | h2⟩ := evalN_core_obj g f cache ds env <;> rw [h2]
  · exact ⟨_, _, _, rfl, keep_ind (P := fun l : List (Obj D W E S) => l[k]? = some d) _ h h1⟩
  · exact ⟨_, _, _, rfl, keep_ind (P := fun l : List (Obj D W E S) => l[k]? = some d) _ h h1⟩

/-- The variable holds a lazy object whose dependency number `k` is `d`. -/
def HasDep (k : Nat) (d : Obj D W E S) (s : State D W E S) (i : Nat) : Prop :=
  ∃ f cache ds, s.vars[i]? = some (.unregularized (.unwrapped (.core f cache ds))) ∧ ds[k]? = some d

/-- A settled dependency of a variable stays as it is, whatever the program does. -/
theorem hasDep_run (g : Glue) (i k : Nat) (d : Obj D W E S) (hd : d.Settled) (ops : List (Op D W E S)) :
    ∀ s : State D W E S, HasDep k d s i → HasDep k d (run g s ops).2 i := by
  induction ops with
  | nil => intro s h; exact h
  | cons op ops ih =>
    intro s h
    refine ih _ ?_
    obtain ⟨f, cache, ds, h, hk⟩ := h
    by_cases hop : op.evaluates i
    · obtain ⟨f', cache', ds', h1, h2⟩ := evalN_keeps g f cache ds s.env k d hk hd
      cases op with
      | call j =>
        simp only [Op.evaluates] at hop
        subst hop
        rw [step_call g s _ _ h, call0_facade, h1, keep_core]
        exact ⟨_, _, _, set_get _ _ _ _ h, keep_ind (P := fun l : List (Obj D W E S) => l[k]? = some d) _ hk h2⟩
      | poll j =>
        simp only [Op.evaluates] at hop
        subst hop
        rw [step_poll g s _ _ h, evalN_facade, h1, keep_core]
        exact ⟨_, _, _, set_get _ _ _ _ h, keep_ind (P := fun l : List (Obj D W E S) => l[k]? = some d) _ hk h2⟩
      | _ => simp [Op.evaluates] at hop
    · exact ⟨f, cache, ds, step_frame g s op i _ h hop, hk⟩

omit [CxxData D] in
theorem fnCalls_runs (l : List (Ev D S)) (id : Nat) (args : List (Val D)) (h : (id, args) ∈ fnCalls l) : id ∈ (runs l).map (·.1) := by
  induction l with
  | nil => simp [fnCalls] at h
  | cons e l ih =>
    cases e with
    | call k j as s s' =>
      cases k with
      | fn =>
        simp only [fnCalls, List.mem_cons, Prod.mk.injEq] at h
        rcases h with ⟨rfl, _⟩ | h
        · simp [runs]
        · simp only [runs, List.map_cons, List.mem_cons]; exact .inr (ih h)
      | dep => simp only [runs, List.map_cons, List.mem_cons]; exact .inr (ih h)
    | cmp a b => exact ih h

/-- The dependencies invoke only functions of the tree. -/
theorem evalDeps_fnIds (g : Glue) (ts : List (Tree D W E S)) (ds : List (Obj D W E S)) (env : Env D W S) (h : ShapeL ts ds) :
    ∃ l, (evalDeps g ds env).2.2.log = env.log ++ l ∧ ∀ id args, (id, args) ∈ fnCalls l → id ∈ (ts.map Tree.postIds).flatten := by
  obtain ⟨⟨l, l', h1, h2, _⟩⟩ := evalDeps_oneCall g ts ds env h
  refine ⟨l, h1, fun id args hm => ?_⟩
  have h3 := fnCalls_runs l id args hm
  rw [← instsL_postIds ts ds h]
  have h4 := h2.sublist
  exact h4.1.subset h3

/-- If the function was invoked, then with the values of the dependencies. -/
theorem invoked_args (g : Glue) (u : UFn D W E S) (cache : Cache D) (ts : List (Tree D W E S)) (ds : List (Obj D W E S)) (env : Env D W S) (h : ShapeL ts ds)
    (hid : u.id ∉ (ts.map Tree.postIds).flatten) (l : List (Ev D S)) (args : List (Val D))
    (hl : (evalN g (.core (.regularized u) cache ds) env).2.2.log = env.log ++ l) (hm : (u.id, args) ∈ fnCalls l) :
    ∃ rs ds' env1, evalDeps g ds env = (.ok rs, ds', env1) ∧ readValues rs = some args ∧
      (evalN g (.core (.regularized u) cache ds) env).2.1 = .core (keep g.coreParamsByValue (.regularized u) (coreTail g (.regularized u) cache rs env1).2.1)
        (keep g.bindFrontCopies cache (coreTail g (.regularized u) cache rs env1).2.2.1) (keep g.coreParamsByValue ds ds') := by
  obtain ⟨l1, h1, h2⟩ := evalDeps_fnIds g ts ds env h
  rcases hd : evalDeps g ds env with ⟨p, ds', env1⟩
  rw [hd] at h1
  simp only at h1
  cases p with
  | ok rs =>
    refine ⟨rs, ds', env1, rfl, ?_, by rw [evalN_core_ok g _ cache ds env hd]⟩
    rw [evalN_core_ok g _ cache ds env hd] at hl
    simp only [coreTail] at hl
    have hno : ∀ l2, env1.log = env.log ++ l2 → (u.id, args) ∈ fnCalls l2 → False := by
      intro l2 h3 h4
      rw [h1] at h3
      rw [← List.append_cancel_left h3] at h4
      exact hid (h2 _ _ h4)
    have hyes : ∀ l2 l3 as, env1.log ++ [.call .fn u.id as u.st l3] ++ l2 = env.log ++ l → fnCalls l2 = [] → as = args := by
      intro l2 l3 as h3 h4
      rw [h1, List.append_assoc, List.append_assoc] at h3
      rw [← List.append_cancel_left h3] at hm
      simp only [fnCalls_append, h4, List.append_nil, List.mem_append] at hm
      rcases hm with hm | hm
      · exact absurd (h2 _ _ hm) hid
      · simpa [fnCalls, eq_comm] using hm
    split at hl
    · split at hl
      · exact (hno l hl hm).elim
      · rename_i as has
        rcases hi : u.run u.st as env1.w with ⟨q, st', w'⟩
        cases q with
        | error e =>
          simp only [Fun.call, UFn.invoke, hi] at hl
          rw [has, hyes [] st' as (by simpa using hl) rfl]
        | ok x =>
          simp only [Fun.call, UFn.invoke, hi] at hl
          split at hl
          · rw [has, hyes _ st' as hl (by simp [cmpEvents_simple])]
          · rw [has, hyes [] st' as (by simpa using hl) rfl]
    · split at hl <;> exact (hno l hl hm).elim
  | _ =>
    rw [evalN_core_fail g _ cache ds env hd rfl] at hl
    rw [h1] at hl
    rw [← List.append_cancel_left hl] at hm
    exact absurd (h2 _ _ hm) hid

end Pigro
