import Verif.Proofs.Shape
/-!
# What one call does: events and states of the callables
-/
namespace Pigro
variable {D W E S : Type}

mutual
/-- The callables stored in an object with their own states, dependencies first, left to right. -/
def Obj.insts : Obj D W E S → List (Nat × S)
  | .lazyValue _ _ => []
  | .core (.regularized u) _ deps => Obj.instsL deps ++ [(u.id, u.st)]
  | .core (.wrapDep u) _ deps => Obj.instsL deps ++ [(u.id, u.st)]
  | .unwrapped i => i.insts
  | .unregularized i => i.insts
/-- List version of `Obj.insts`. -/
def Obj.instsL : List (Obj D W E S) → List (Nat × S)
  | [] => []
  | d :: ds => d.insts ++ Obj.instsL ds
end

/-- The hand-overs that pass callables and dependencies along are by reference. -/
def Glue.keepsFns (g : Glue) : Bool :=
  !g.coreParamsByValue && !g.unwrapParamByValue && !g.facadeParamByValue &&
  !g.regParamByValue && !g.wrapParamByValue

/-! ### Event functions are homomorphisms -/

@[simp] theorem depCalls_append (a b : List (Ev D S)) :
    depCalls (a ++ b) = depCalls a ++ depCalls b := by
  induction a with
  | nil => rfl
  | cons e a ih => cases e with
    | call k id args s l => cases k <;> simp [depCalls, ih]
    | cmp x y => simp [depCalls, ih]

@[simp] theorem calls_append (a b : List (Ev D S)) : calls (a ++ b) = calls a ++ calls b := by
  induction a with
  | nil => rfl
  | cons e a ih => cases e <;> simp [calls, ih]

@[simp] theorem fnCalls_append (a b : List (Ev D S)) :
    fnCalls (a ++ b) = fnCalls a ++ fnCalls b := by
  induction a with
  | nil => rfl
  | cons e a ih => cases e with
    | call k id args s l => cases k <;> simp [fnCalls, ih]
    | cmp x y => simp [fnCalls, ih]

@[simp] theorem cmps_append (a b : List (Ev D S)) : cmps (a ++ b) = cmps a ++ cmps b := by
  induction a with
  | nil => rfl
  | cons e a ih => cases e <;> simp [cmps, ih]

@[simp] theorem runs_append (a b : List (Ev D S)) : runs (a ++ b) = runs a ++ runs b := by
  induction a with
  | nil => rfl
  | cons e a ih => cases e <;> simp [runs, ih]

theorem calls_eq_runs (a : List (Ev D S)) : calls a = (runs a).map (·.1) := by
  induction a with
  | nil => rfl
  | cons e a ih => cases e <;> simp [calls, runs, ih]

theorem cmpEvents_simple (c : Cache D) (r : Val D) :
    depCalls (cmpEvents c r : List (Ev D S)) = [] ∧ runs (cmpEvents c r : List (Ev D S)) = [] ∧
    fnCalls (cmpEvents c r : List (Ev D S)) = [] ∧ calls (cmpEvents c r : List (Ev D S)) = [] := by
  rcases c with ⟨_ | _⟩ | _ <;> simp [cmpEvents, depCalls, runs, fnCalls, calls]

/-! ### `Threads` -/

theorem Threads.refl : ∀ l : List (Nat × S), Threads l [] l
  | [] => .nil
  | c :: l => .skip c (Threads.refl l)

theorem Threads.append {a b : List (Nat × S)} {r q a' b'} (h : Threads a r a')
    (h' : Threads b q b') : Threads (a ++ b) (r ++ q) (a' ++ b') := by
  induction h with
  | nil => simpa
  | skip c _ ih => exact .skip c ih
  | run id s s' _ ih => exact .run id s s' ih

theorem Threads.sublist {a : List (Nat × S)} {r a'} (h : Threads a r a') :
    (r.map (·.1)).Sublist (a.map (·.1)) ∧ a'.map (·.1) = a.map (·.1) := by
  induction h with
  | nil => simp
  | skip c _ ih => exact ⟨ih.1.cons _, by simp [ih.2]⟩
  | run id s s' _ ih => exact ⟨by simpa using ih.1, by simp [ih.2]⟩

/-! ### The events of `coreTail` -/

theorem invoke_log (u : UFn D W E S) (k : Kind) (args : List (Val D)) (env : Env D W S) :
    (u.invoke k args env).2.2.log =
      env.log ++ [.call k u.id args u.st (u.invoke k args env).2.1.st] := rfl

variable [CxxData D]

/-- The wrapped function is called at most once after the dependencies, perhaps followed by a comparison. -/
theorem coreTail_reg_events (g : Glue) (u : UFn D W E S) (cache : Cache D)
    (rs : List (LazyRes D)) (env : Env D W S) :
    ((coreTail g (.regularized u) cache rs env).2.1 = .regularized u ∧
      (coreTail g (.regularized u) cache rs env).2.2.2.log = env.log) ∨
    ∃ args c r, ((coreTail g (.regularized u) cache rs env).2.1 =
        .regularized (keep g.regParamByValue u (u.invoke .fn args env).2.1)) ∧
      ((coreTail g (.regularized u) cache rs env).2.2.2.log =
        env.log ++ [.call .fn u.id args u.st (u.invoke .fn args env).2.1.st] ∨
       (coreTail g (.regularized u) cache rs env).2.2.2.log =
        env.log ++ ([.call .fn u.id args u.st (u.invoke .fn args env).2.1.st] ++ cmpEvents c r)) := by
  unfold coreTail
  dsimp only
  split
  · split
    · simp
    · rename_i values _
      have hl := invoke_log u .fn values env
      rcases h : u.invoke .fn values env with ⟨o, u', env'⟩
      rw [h] at hl
      cases o with
      | ok r =>
        simp only [Fun.call, h]
        split
        · refine .inr ⟨values, cache, u.ret.regularize r, by rw [h], .inr ?_⟩
          simp only [h]
          rw [hl, List.append_assoc]
        · refine .inr ⟨values, cache, u.ret.regularize r, by rw [h], .inl ?_⟩
          simp only [h]
          exact hl
      | error e =>
        simp only [Fun.call, h]
        refine .inr ⟨values, cache, .rvoid, by rw [h], .inl ?_⟩
        simp only [h]
        exact hl
  · split <;> simp

/-- The adaptor of a plain function, whose only dependency always reports a change, calls it once. -/
theorem coreTail_wrap_events (g : Glue) (u : UFn D W E S) (cache : Cache D)
    (rs : List (LazyRes D)) (env : Env D W S) :
    ((coreTail g (.wrapDep u) cache rs env).2.1 = .wrapDep u ∧
      (coreTail g (.wrapDep u) cache rs env).2.2.2.log = env.log ∧
      ((any LazyRes.isChanged rs) = true →
        (coreTail g (.wrapDep u) cache rs env).1.isOk = false)) ∨
    ∃ c r, ((coreTail g (.wrapDep u) cache rs env).2.1 =
        .wrapDep (keep g.wrapParamByValue u (u.invoke .dep [] env).2.1)) ∧
      ((coreTail g (.wrapDep u) cache rs env).2.2.2.log =
        env.log ++ [.call .dep u.id [] u.st (u.invoke .dep [] env).2.1.st] ∨
       (coreTail g (.wrapDep u) cache rs env).2.2.2.log =
        env.log ++ ([.call .dep u.id [] u.st (u.invoke .dep [] env).2.1.st] ++ cmpEvents c r)) := by
  unfold coreTail
  dsimp only
  split
  · split
    · simp [Out.isOk]
    · rename_i values _
      have hl := invoke_log u .dep [] env
      rcases h : u.invoke .dep [] env with ⟨o, u', env'⟩
      rw [h] at hl
      cases o with
      | ok r =>
        simp only [Fun.call, h]
        split
        · refine .inr ⟨cache, u.ret.regularize r, rfl, .inr ?_⟩
          simp only
          rw [hl, List.append_assoc]
        · exact .inr ⟨cache, u.ret.regularize r, rfl, .inl hl⟩
      | error e =>
        simp only [Fun.call, h]
        exact .inr ⟨cache, .rvoid, by trivial, .inl hl⟩
  · rename_i hc
    simp only [Bool.or_eq_true, not_or, Bool.not_eq_true] at hc
    split <;> simp [hc.2]

/-! ### One call -/

/-- Everything the induction needs to know about one evaluation. -/
structure OneCall (g : Glue) (leaves : List Nat) (env : Env D W S) (env' : Env D W S)
    (before after : List (Nat × S)) (ok : Bool) : Prop where
  ex : ∃ evs l', env'.log = env.log ++ evs ∧ Threads before (runs evs) l' ∧
    (g.keepsFns = true → after = l') ∧ depCalls evs <+: leaves ∧
    (ok = true → depCalls evs = leaves)

mutual
theorem evalN_oneCall (g : Glue) (t : Tree D W E S) (o : Obj D W E S) (env : Env D W S)
    (h : Shape t o) :
    OneCall g t.leafIds env (evalN g o env).2.2 o.insts (evalN g o env).2.1.insts
      (evalN g o env).1.isOk := by
  match t with
  | .value v =>
    simp only [Shape] at h; subst h
    exact ⟨[], [], by simp [evalN, Obj.insts, runs, depCalls, Tree.leafIds, Threads.nil]⟩
  | .function c =>
    simp only [Shape] at h
    obtain ⟨u, cache, rfl, hv, hf, rfl⟩ := h
    have hd : evalDeps g [Obj.lazyValue (.data CxxData.zero) true] env =
        (.ok [⟨.data CxxData.zero, true, !(g.resultByRef && g.valueParamByValue)⟩],
          [(Obj.lazyValue (.data CxxData.zero) true : Obj D W E S)], env) := by
      simp [evalDeps, evalN, Out.map]
    rw [evalN_core_ok g (.wrapDep u) cache _ env hd]
    have hany : any LazyRes.isChanged [(⟨.data CxxData.zero, true,
        !(g.resultByRef && g.valueParamByValue)⟩ : LazyRes D)] = true := by
      simp [any, anyS]
    rcases coreTail_wrap_events g u cache
      [⟨.data CxxData.zero, true, !(g.resultByRef && g.valueParamByValue)⟩] env with
      ⟨h1, h2, h3⟩ | ⟨c, r, h1, h2⟩
    · refine ⟨[], [(u.id, u.st)], ?_⟩
      simp only [h1, h2, h3 hany, keep_self]
      simp [Obj.insts, Obj.instsL, runs, depCalls, Threads.refl]
    · have hin : g.keepsFns = true → Obj.insts (Obj.core (keep g.coreParamsByValue (.wrapDep u)
          (coreTail g (.wrapDep u) cache [⟨.data CxxData.zero, true, !(g.resultByRef &&
            g.valueParamByValue)⟩] env).2.1)
          (keep g.bindFrontCopies cache (coreTail g (.wrapDep u) cache [⟨.data CxxData.zero, true,
            !(g.resultByRef && g.valueParamByValue)⟩] env).2.2.1)
          (keep g.coreParamsByValue [Obj.lazyValue (.data CxxData.zero) true]
            [Obj.lazyValue (.data CxxData.zero) true])) =
          [(u.id, (u.invoke .dep [] env).2.1.st)] := by
        intro hk
        simp only [Glue.keepsFns, Bool.and_eq_true, Bool.not_eq_true'] at hk
        obtain ⟨⟨⟨⟨hb, _⟩, _⟩, _⟩, hw⟩ := hk
        rw [h1]
        simp [hb, hw, Obj.insts, Obj.instsL, UFn.invoke]
      have hth : Threads [(u.id, u.st)] [(u.id, u.st, (u.invoke .dep [] env).2.1.st)]
          [(u.id, (u.invoke .dep [] env).2.1.st)] := .run _ _ _ .nil
      have hs := cmpEvents_simple (S := S) c r
      rcases h2 with h2 | h2
      · refine ⟨_, _, h2, ?_, hin, ?_, ?_⟩
        · simpa [Obj.insts, Obj.instsL, runs] using hth
        · simp [depCalls, Tree.leafIds]
        · simp [depCalls, Tree.leafIds]
      · refine ⟨_, _, h2, ?_, hin, ?_, ?_⟩
        · simpa [Obj.insts, Obj.instsL, runs, hs] using hth
        · simp [depCalls, Tree.leafIds, hs]
        · simp [depCalls, Tree.leafIds, hs]
  | .lazy c ts =>
    simp only [Shape] at h
    obtain ⟨u, cache, ds, rfl, hf, hds, rfl⟩ := h
    obtain ⟨evs, l', h1, h2, h3, h4, h5⟩ := (evalDeps_oneCall g ts ds env hds).ex
    have hok : ∀ (o : Out E (LazyRes D)) b, (o.map (LazyRes.through b)).isOk = o.isOk := by
      intro o b; cases o <;> rfl
    rw [evalN_facade]
    simp only [hok]
    rcases he : evalDeps g ds env with ⟨r, ds', env1⟩
    rw [he] at h1 h3 h5
    simp only at h1 h3 h5
    by_cases hr : r.isOk = true
    · obtain ⟨rs, rfl⟩ : ∃ rs, r = .ok rs := by
        cases r <;> simp_all [Out.isOk]
      rw [evalN_core_ok g (.regularized u) cache ds env he]
      simp only [keep_core]
      have h5' := h5 rfl
      rcases coreTail_reg_events g u cache rs env1 with ⟨q1, q2⟩ | ⟨args, c, v, q1, q2⟩
      · refine ⟨evs, l' ++ [(u.id, u.st)], by rw [q2, h1], ?_, ?_, ?_, ?_⟩
        · simp only [Obj.insts]
          have := h2.append (Threads.refl [(u.id, u.st)])
          simpa using this
        · intro hk
          have h3' := h3 hk
          simp only [Glue.keepsFns, Bool.and_eq_true, Bool.not_eq_true'] at hk
          obtain ⟨⟨⟨⟨hb, hc⟩, hd⟩, hr⟩, hw⟩ := hk
          simp [Obj.insts, hb, hc, hd, q1, h3']
        · simp [Tree.leafIds, h5']
        · simp [Tree.leafIds, h5']
      · have hth : Threads [(u.id, u.st)] [(u.id, u.st, (u.invoke .fn args env1).2.1.st)]
          [(u.id, (u.invoke .fn args env1).2.1.st)] := .run _ _ _ .nil
        have hin : g.keepsFns = true → Obj.insts (Obj.unregularized (.unwrapped
            (.core (keep (g.facadeParamByValue || g.unwrapParamByValue) (.regularized u)
                (keep g.coreParamsByValue (.regularized u) (coreTail g (.regularized u) cache rs env1).2.1))
              (keep (g.facadeParamByValue || g.unwrapParamByValue) cache
                (keep g.bindFrontCopies cache (coreTail g (.regularized u) cache rs env1).2.2.1))
              (keep (g.facadeParamByValue || g.unwrapParamByValue) ds
                (keep g.coreParamsByValue ds ds'))))) =
            l' ++ [(u.id, (u.invoke .fn args env1).2.1.st)] := by
          intro hk
          have h3' := h3 hk
          simp only [Glue.keepsFns, Bool.and_eq_true, Bool.not_eq_true'] at hk
          obtain ⟨⟨⟨⟨hb, hc⟩, hd⟩, hr⟩, hw⟩ := hk
          simp [Obj.insts, hb, hc, hd, q1, h3', hr, UFn.invoke]
        have hs := cmpEvents_simple (S := S) c v
        rcases q2 with q2 | q2
        · refine ⟨evs ++ [_], _, by rw [q2, h1, List.append_assoc], ?_, hin, ?_, ?_⟩
          · simp only [Obj.insts, runs_append]
            exact h2.append hth
          · simp [Tree.leafIds, h5', depCalls]
          · simp [Tree.leafIds, h5', depCalls]
        · refine ⟨evs ++ _, _, by rw [q2, h1, List.append_assoc], ?_, hin, ?_, ?_⟩
          · simp only [Obj.insts, runs_append]
            exact h2.append (by simpa [runs, hs] using hth)
          · simp [Tree.leafIds, h5', depCalls, hs]
          · simp [Tree.leafIds, h5', depCalls, hs]
    · simp only [Bool.not_eq_true] at hr
      rw [evalN_core_fail g (.regularized u) cache ds env he hr]
      have hm : (r.map (fun _ => (⟨.rvoid, false, false⟩ : LazyRes D))).isOk = false := by
        cases r <;> simp_all [Out.isOk, Out.map]
      refine ⟨evs, l' ++ [(u.id, u.st)], h1, ?_, ?_, ?_, ?_⟩
      · simp only [Obj.insts]
        have := h2.append (Threads.refl [(u.id, u.st)])
        simpa using this
      · intro hk
        have h3' := h3 hk
        simp only [Glue.keepsFns, Bool.and_eq_true, Bool.not_eq_true'] at hk
        obtain ⟨⟨⟨⟨hb, hc⟩, hd⟩, hr⟩, hw⟩ := hk
        simp [Obj.insts, hb, hc, hd, h3']
      · simpa [Tree.leafIds] using h4
      · simp [hm]
theorem evalDeps_oneCall (g : Glue) (ts : List (Tree D W E S)) (ds : List (Obj D W E S))
    (env : Env D W S) (h : ShapeL ts ds) :
    OneCall g (ts.map Tree.leafIds).flatten env (evalDeps g ds env).2.2 (Obj.instsL ds)
      (Obj.instsL (evalDeps g ds env).2.1) (evalDeps g ds env).1.isOk := by
  match ts with
  | [] =>
    simp only [ShapeL] at h; subst h
    exact ⟨[], [], by simp [evalDeps, Obj.instsL, runs, depCalls, Threads.nil]⟩
  | t :: ts =>
    simp only [ShapeL] at h
    obtain ⟨d, ds', hd, hds, rfl⟩ := h
    obtain ⟨evs, l', h1, h2, h3, h4, h5⟩ := (evalN_oneCall g t d env hd).ex
    rcases he : evalN g d env with ⟨r, d', env1⟩
    rw [he] at h1 h3 h5
    simp only at h1 h3 h5
    by_cases hr : r.isOk = true
    · obtain ⟨rs, rfl⟩ : ∃ rs, r = .ok rs := by
        cases r <;> simp_all [Out.isOk]
      have h5' := h5 rfl
      obtain ⟨evs2, l2', k1, k2, k3, k4, k5⟩ := (evalDeps_oneCall g ts ds' env1 hds).ex
      simp only [evalDeps, he]
      have hok : ∀ (o : Out E (List (LazyRes D))), (o.map (rs :: ·)).isOk = o.isOk := by
        intro o; cases o <;> rfl
      rw [hok]
      refine ⟨evs ++ evs2, l' ++ l2', by rw [k1, h1, List.append_assoc], ?_, ?_, ?_, ?_⟩
      · simp only [Obj.instsL, runs_append]; exact h2.append k2
      · intro hk; simp [Obj.instsL, h3 hk, k3 hk]
      · simp only [depCalls_append, h5', List.map_cons, List.flatten_cons]
        exact List.prefix_append_right_inj _ |>.2 k4
      · intro hk; simp [h5', k5 hk]
    · simp only [Bool.not_eq_true] at hr
      have e1 : evalDeps g (d :: ds') env = (r.map (fun _ => []), d' :: ds', env1) := by
        rw [evalDeps, he]; cases r <;> simp_all [Out.isOk]
      have hm : (r.map (fun _ => ([] : List (LazyRes D)))).isOk = false := by
        cases r <;> simp_all [Out.isOk, Out.map]
      rw [e1]
      refine ⟨evs, l' ++ Obj.instsL ds', h1, ?_, ?_, ?_, ?_⟩
      · simp only [Obj.instsL]
        have := h2.append (Threads.refl (Obj.instsL ds'))
        simpa using this
      · intro hk; simp [Obj.instsL, h3 hk]
      · simp only [List.map_cons, List.flatten_cons]
        exact h4.trans (List.prefix_append _ _)
      · simp [hm]
end

mutual

theorem insts_postIds (t : Tree D W E S) (o : Obj D W E S) (h : Shape t o) :
    o.insts.map (·.1) = t.postIds := by
  match t with
  | .value v => simp only [Shape] at h; subst h; simp [Obj.insts, Tree.postIds]
  | .function c =>
    simp only [Shape] at h
    obtain ⟨u, cache, rfl, hv, hf, rfl⟩ := h
    simp [Obj.insts, Obj.instsL, Tree.postIds]
  | .lazy c ts =>
    simp only [Shape] at h
    obtain ⟨u, cache, ds, rfl, hf, hds, rfl⟩ := h
    have := instsL_postIds ts ds hds
    simp [Obj.insts, Tree.postIds, this]
theorem instsL_postIds (ts : List (Tree D W E S)) (ds : List (Obj D W E S)) (h : ShapeL ts ds) :
    (Obj.instsL ds).map (·.1) = (ts.map Tree.postIds).flatten := by
  match ts with
  | [] => simp only [ShapeL] at h; subst h; simp [Obj.instsL]
  | t :: ts =>
    simp only [ShapeL] at h
    obtain ⟨d, ds', hd, hds, rfl⟩ := h
    simp [Obj.instsL, insts_postIds t d hd, instsL_postIds ts ds' hds]
end

end Pigro
