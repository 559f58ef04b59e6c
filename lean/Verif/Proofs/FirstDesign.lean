import Verif.Model.FirstDesign
import Verif.Spec.FirstDesign
import Verif.Proofs.LazyMore
/-!
# The current design and the first design go in step
-/
namespace Pigro
variable {D W E S : Type} [CxxData D]

mutual
theorem Val.ne_symm (he : EquivNe D) (a b : Val D) (h : Val.ne a b = false) : Val.ne b a = false := by
  match a, b with
  | .data a, .data b => exact he.symm a b h
  | .rvoid, .rvoid => rfl
  | .tup as, .tup bs => exact Val.neList_symm he as bs h
theorem Val.neList_symm (he : EquivNe D) (as bs : List (Val D)) (h : Val.neList as bs = false) : Val.neList bs as = false := by
  match as, bs with
  | [], [] => rfl
  | a :: as, b :: bs =>
    simp only [Val.neList, Bool.or_eq_false_iff] at h ⊢
    exact ⟨Val.ne_symm he a b h.1, Val.neList_symm he as bs h.2⟩
  | [], _ :: _ => simp [Val.neList] at h
  | _ :: _, [] => simp [Val.neList] at h
end

mutual
theorem Val.ne_trans (he : EquivNe D) (a b c : Val D) (h : Val.ne a b = false) (h' : Val.ne b c = false) : Val.ne a c = false := by
  match a, b, c with
  | .data a, .data b, .data c => exact he.trans a b c h h'
  | .rvoid, .rvoid, .rvoid => rfl
  | .tup as, .tup bs, .tup cs => exact Val.neList_trans he as bs cs h h'
theorem Val.neList_trans (he : EquivNe D) (as bs cs : List (Val D)) (h : Val.neList as bs = false) (h' : Val.neList bs cs = false) :
    Val.neList as cs = false := by
  match as, bs, cs with
  | [], [], [] => rfl
  | a :: as, b :: bs, c :: cs =>
    simp only [Val.neList, Bool.or_eq_false_iff] at h h' ⊢
    exact ⟨Val.ne_trans he a b c h.1 h'.1, Val.neList_trans he as bs cs h.2 h'.2⟩
  | [], _ :: _, _ => simp [Val.neList] at h
  | _ :: _, [], _ => simp [Val.neList] at h
  | [], [], _ :: _ => simp [Val.neList] at h'
  | _ :: _, _ :: _, [] => simp [Val.neList] at h'
end

/-- Equal lists are not told apart from a third one. -/
theorem neList_swap (he : EquivNe D) {vs old : List (Val D)} (h : Val.neList vs old = false) (now : List (Val D)) :
    Val.neList now old = Val.neList vs now := by
  cases h1 : Val.neList vs now with
  | false => exact Val.neList_trans he _ _ _ (Val.neList_symm he _ _ h1) h
  | true =>
    cases h2 : Val.neList now old with
    | true => rfl
    | false =>
      have := Val.neList_trans he _ _ _ h (Val.neList_symm he _ _ h2)
      rw [this] at h1
      cases h1

mutual
/-- The two objects are states of the same lazy function after the same history. -/
def Same : DObj D W E S → Obj D W E S → Prop
  | .value v, o => o = .lazyValue v false
  | .function u, o => ∃ cache, u.ret ≠ .void ∧ cache.Fits u.ret ∧ o = .core (.wrapDep u) cache [.lazyValue (.data CxxData.zero) true]
  | .lazy u cache dc ds, o => ∃ os, cache.Fits u.ret ∧ SameL ds os ∧ o = .unregularized (.unwrapped (.core (.regularized u) cache os)) ∧
      (cache.engaged = true → ∃ old vs, dc = some old ∧ os.map Obj.lastVal = vs.map some ∧ Val.neList vs old = false)
/-- Element-wise. -/
def SameL : List (DObj D W E S) → List (Obj D W E S) → Prop
  | [], os => os = []
  | d :: ds, os => ∃ o os', Same d o ∧ SameL ds os' ∧ os = o :: os'
end

/-- What the user passed to `lazy`. -/
def DObj.tree : DObj D W E S → Tree D W E S
  | .value v => .value v
  | .function u => .function u.toFnCode
  | .lazy u _ _ ds => .lazy u.toFnCode (ds.map DObj.tree)

/-- Same world, same invocations so far. -/
def SameEnv (a b : Env D W S) : Prop := a.w = b.w ∧ invocations a.log = invocations b.log

omit [CxxData D] in
theorem invocations_append (a b : List (Ev D S)) : invocations (a ++ b) = invocations a ++ invocations b := by
  induction a with
  | nil => rfl
  | cons e a ih => cases e <;> simp [invocations, ih]

omit [CxxData D] in
theorem invocations_cmpEvents (c : Cache D) (r : Val D) : invocations (cmpEvents c r : List (Ev D S)) = [] := by
  rcases c with (_ | _) | _ <;> rfl

theorem invocations_argsCmps : ∀ (as bs : List (Val D)), invocations (argsCmps as bs : List (Ev D S)) = []
  | [], _ => by simp [argsCmps, invocations]
  | _ :: _, [] => by simp [argsCmps, invocations]
  | a :: as, b :: bs => by
    simp only [argsCmps, invocations]
    split
    · rfl
    · exact invocations_argsCmps as bs

theorem invocations_conditionCmps (c : Cache D) (vs : List (Val D)) (dc : Option (List (Val D))) :
    invocations (conditionCmps c vs dc : List (Ev D S)) = [] := by
  cases dc with
  | none => rfl
  | some old =>
    simp only [conditionCmps]
    split
    · exact invocations_argsCmps _ _
    · rfl

theorem cmps_argsCmps : ∀ (as bs : List (Val D)), Val.neList as bs = false → (cmps (argsCmps as bs : List (Ev D S))).length = as.length
  | [], [], _ => rfl
  | a :: as, b :: bs, h => by
    simp only [Val.neList, Bool.or_eq_false_iff] at h
    simp [argsCmps, cmps, h.1, cmps_argsCmps as bs h.2]
  | [], _ :: _, h => by simp [Val.neList] at h
  | _ :: _, [], h => by simp [Val.neList] at h

/-- One call in both designs. -/
def InStep (d : DObj D W E S) (o : Obj D W E S) (denv env : Env D W S) : Prop :=
  ∃ q o' env' q' d' denv', evalN .retained o env = (q, o', env') ∧ d.call denv = (q', d', denv') ∧ SameEnv denv' env' ∧
    ((∃ e, q = .thrown e ∧ q' = .thrown e) ∨
     ∃ r, q = .ok r ∧ q' = .ok r.value ∧ r.live = true ∧ Same d' o' ∧ o'.lastVal = some r.value ∧
      (∀ v, o.lastVal = some v → r.isChanged = Val.ne v r.value) ∧
      ∃ l dl, env'.log = env.log ++ l ∧ denv'.log = denv.log ++ dl ∧
        ((o.lastVal.isSome = true ∨ ∃ f c dc ds, d = .lazy f c dc ds) → fnCalls l = [] → (cmps l).length = d.tree.plainFunctions ∧ (cmps dl).length = d.tree.dependencies) ∧
        d'.tree = d.tree)

/-- Several calls in both designs. -/
def InStepL (ds : List (DObj D W E S)) (os : List (Obj D W E S)) (denv env : Env D W S) : Prop :=
  ∃ q os' env' q' ds' denv', evalDeps .retained os env = (q, os', env') ∧ DObj.callAll ds denv = (q', ds', denv') ∧ SameEnv denv' env' ∧
    ((∃ e, q = .thrown e ∧ q' = .thrown e) ∨
     ∃ rs, q = .ok rs ∧ q' = .ok (rs.map LazyRes.value) ∧ rs.all (·.live) = true ∧ SameL ds' os' ∧
      os'.map Obj.lastVal = (rs.map LazyRes.value).map some ∧
      (∀ vs, os.map Obj.lastVal = vs.map some → rs.any (·.isChanged) = Val.neList vs (rs.map LazyRes.value)) ∧
      ∃ l dl, env'.log = env.log ++ l ∧ denv'.log = denv.log ++ dl ∧
        ((os.all fun o => o.lastVal.isSome) = true → fnCalls l = [] →
          (cmps l).length = (ds.map fun d => d.tree.plainFunctions).sum ∧ (cmps dl).length = (ds.map fun d => d.tree.dependencies).sum) ∧
        ds'.map DObj.tree = ds.map DObj.tree)

theorem sameL_length : ∀ {ds : List (DObj D W E S)} {os : List (Obj D W E S)}, SameL ds os → ds.length = os.length
  | [], os, h => by simp only [SameL] at h; rw [h]; rfl
  | d :: ds, os, h => by
    simp only [SameL] at h
    obtain ⟨o, os', _, h, rfl⟩ := h
    simp [sameL_length h]

omit [CxxData D] in
theorem readValues_ctad {rs : List (LazyRes D)} (h : rs.all (·.live) = true) :
    readValues rs = some (tupleCTAD Val.asTuple (rs.map LazyRes.value)) := by
  rw [readValues, if_pos h, transform_eq]

theorem map_some_inj {α : Type} : ∀ {xs ys : List α}, xs.map some = ys.map some → xs = ys
  | [], [], _ => rfl
  | x :: xs, y :: ys, h => by
    simp only [List.map_cons, List.cons.injEq, Option.some.injEq] at h
    rw [h.1, map_some_inj h.2]
  | [], _ :: _, h => by simp at h
  | _ :: _, [], h => by simp at h

mutual
theorem inStep (he : EquivNe D) : ∀ (d : DObj D W E S) (o : Obj D W E S) (denv env : Env D W S), Same d o → SameEnv denv env → InStep d o denv env
  | .value v, o, denv, env, h, hs => by
    simp only [Same] at h
    subst h
    exact ⟨_, _, _, _, _, _, by rw [evalN], by rw [DObj.call], hs, .inr ⟨_, rfl, rfl, rfl, by simp [Same], rfl, by
      intro v' hv; simp only [Obj.lastVal, Option.some.injEq] at hv; subst hv; exact (Val.ne_refl he.refl _).symm,
      [], [], by simp, by simp, fun _ _ => by simp [DObj.tree, Tree.plainFunctions, Tree.dependencies, cmps], rfl⟩⟩
  | .function u, o, denv, env, h, hs => by
    simp only [Same] at h
    obtain ⟨cache, hv, hf, rfl⟩ := h
    obtain ⟨hw, hl⟩ := hs
    have hd : evalDeps Glue.retained [(Obj.lazyValue (.data CxxData.zero) true : Obj D W E S)] env =
        (.ok [⟨.data CxxData.zero, true, true⟩], [Obj.lazyValue (.data CxxData.zero) true], env) := by
      simp [evalDeps, evalN, Out.map, Glue.retained]
    unfold InStep
    rw [evalN_core_ok _ _ _ _ _ hd, DObj.call]
    simp only [UFn.invoke, hw]
    rcases hr : u.run u.st [] env.w with ⟨x, st, w'⟩
    cases x with
    | error e =>
      refine ⟨_, _, _, _, _, _, rfl, rfl, ?_, .inl ⟨e, ?_, rfl⟩⟩
      · simp [coreTail, any_eq, readValues, Fun.call, UFn.invoke, hr, SameEnv, hl, invocations_append, invocations]
      · simp [coreTail, any_eq, readValues, Fun.call, UFn.invoke, hr, Out.map]
    | ok v =>
      have hval := Cache.assign_val? hf v
      have hder := Cache.deref_of_val? _ hval
      refine ⟨_, _, _, _, _, _, rfl, rfl, ?_, .inr ⟨⟨u.ret.regularize v, cache.ne (u.ret.regularize v), true⟩, ?_, rfl, rfl, ?_, ?_, ?_, ?_⟩⟩
      · simp [coreTail, any_eq, readValues, Fun.call, UFn.invoke, hr, SameEnv, hl, invocations_append, invocations, hder, invocations_cmpEvents]
      · simp [coreTail, any_eq, readValues, Fun.call, UFn.invoke, hr, hder, Glue.coreLive, Glue.retained]
        cases cache <;> rfl
      · simp only [Same]
        refine ⟨cache.assign (u.ret.regularize v), hv, Cache.assign_fits _ hf, ?_⟩
        simp [coreTail, any_eq, readValues, Fun.call, UFn.invoke, hr, hder, Glue.retained]
      · simp [coreTail, any_eq, readValues, Fun.call, UFn.invoke, hr, hder, Glue.retained, Obj.lastVal, hval]
      · intro x hx
        simp only [Obj.lastVal] at hx
        simp [Cache.ne_val? hf, hx]
      · refine ⟨[.call .dep u.id [] u.st st] ++ cmpEvents cache (u.ret.regularize v), [.call .dep u.id [] u.st st], ?_, rfl, ?_, by simp [DObj.tree]⟩
        · simp [coreTail, any_eq, readValues, Fun.call, UFn.invoke, hr, hder]
        · intro hsome _
          have hsome := hsome.resolve_right (by simp)
          simp only [Obj.lastVal] at hsome
          simp only [DObj.tree, Tree.plainFunctions, Tree.dependencies, cmps, List.cons_append, List.nil_append]
          refine ⟨?_, rfl⟩
          rcases cache with (_ | x) | x
          · simp [Cache.val?] at hsome
          · simp only [Cache.Fits] at hf; simp [cmpEvents, cmps, hf]
          · simp only [Cache.Fits] at hf; simp [cmpEvents, cmps, hf]
  | .lazy u cache dc ds, o, denv, env, h, hs => by
    simp only [Same] at h
    obtain ⟨os, hf, hds, rfl, hc⟩ := h
    obtain ⟨q, os', env1, q', ds', denv1, h1, h2, hs1, hcase⟩ := inStepL he ds os denv env hds hs
    unfold InStep
    rw [evalN_facade]
    rcases hcase with ⟨e, rfl, rfl⟩ | ⟨rs, rfl, rfl, hlive, hsame, hlast, hflag, l, dl, hl1, hl2, hcnt, htree⟩
    · rw [evalN_core_fail _ _ _ _ _ h1 rfl, DObj.call, h2]
      exact ⟨_, _, _, _, _, _, rfl, rfl, hs1, .inl ⟨e, rfl, rfl⟩⟩
    · rw [evalN_core_ok _ _ _ _ _ h1, DObj.call, h2]
      obtain ⟨hw, hl⟩ := hs1
      have hcond : (!cache.engaged || argsNe (rs.map LazyRes.value) dc) = (!cache.engaged || any LazyRes.isChanged rs) := by
        cases hen : cache.engaged with
        | false => rfl
        | true =>
          obtain ⟨old, vs, rfl, hvs, hne⟩ := hc hen
          simp only [argsNe, any_eq, Bool.not_true, Bool.false_or]
          rw [neList_swap he hne, hflag vs hvs]
      dsimp only
      rw [hcond]
      cases hch : (!cache.engaged || any LazyRes.isChanged rs) with
      | true =>
        simp only [if_true, UFn.invoke, hw]
        rcases hr : u.run u.st (tupleCTAD Val.asTuple (rs.map LazyRes.value)) env1.w with ⟨x, st, w'⟩
        cases x with
        | error e =>
          refine ⟨_, _, _, _, _, _, rfl, rfl, ?_, .inl ⟨e, ?_, rfl⟩⟩
          · simp [coreTail, hch, readValues_ctad hlive, Fun.call, UFn.invoke, hr, SameEnv, hl, invocations_append, invocations, invocations_conditionCmps]
          · simp [coreTail, hch, readValues_ctad hlive, Fun.call, UFn.invoke, hr, Out.map]
        | ok v =>
          have hval := Cache.assign_val? hf v
          have hder := Cache.deref_of_val? _ hval
          simp only [hder]
          refine ⟨_, _, _, _, _, _, rfl, rfl, ?_, .inr ⟨⟨u.ret.regularize v, cache.ne (u.ret.regularize v), true⟩, ?_, rfl, rfl, ?_, ?_, ?_, ?_⟩⟩
          · simp [coreTail, hch, readValues_ctad hlive, Fun.call, UFn.invoke, hr, SameEnv, hl, invocations_append, invocations, hder,
              invocations_cmpEvents, invocations_conditionCmps]
          · simp [coreTail, hch, readValues_ctad hlive, Fun.call, UFn.invoke, hr, hder, Glue.coreLive, Glue.retained, Out.map, LazyRes.through]
            cases cache <;> rfl
          · simp only [Same]
            refine ⟨os', Cache.assign_fits _ hf, hsame, ?_, fun _ => ⟨_, _, rfl, hlast, Val.neList_refl he.refl _⟩⟩
            simp [coreTail, hch, readValues_ctad hlive, Fun.call, UFn.invoke, hr, hder, Glue.retained]
          · simp [coreTail, hch, readValues_ctad hlive, Fun.call, UFn.invoke, hr, hder, Glue.retained, Obj.lastVal, hval]
          · intro x hx
            simp only [Obj.lastVal] at hx
            simp [Cache.ne_val? hf, hx]
          · refine ⟨l ++ [.call .fn u.id (tupleCTAD Val.asTuple (rs.map LazyRes.value)) u.st st] ++ cmpEvents cache (u.ret.regularize v),
              dl ++ conditionCmps cache (rs.map LazyRes.value) dc ++ [.call .fn u.id (tupleCTAD Val.asTuple (rs.map LazyRes.value)) u.st st], ?_, ?_, ?_, ?_⟩
            · simp [coreTail, hch, readValues_ctad hlive, Fun.call, UFn.invoke, hr, hder, hl1]
            · simp [hl2]
            · intro _ hn
              simp [fnCalls_append, fnCalls] at hn
            · simp [DObj.tree, htree]
      | false =>
        simp only [Bool.or_eq_false_iff, Bool.not_eq_false'] at hch
        obtain ⟨hen, hany⟩ := hch
        obtain ⟨old, vs, rfl, hvs, hne⟩ := hc hen
        have hsm : ∃ x, cache.val? = some x := by rw [Cache.engaged_val?] at hen; exact Option.isSome_iff_exists.mp hen
        obtain ⟨x, hx⟩ := hsm
        have hder := Cache.deref_of_val? _ hx
        simp only [Bool.false_eq_true, if_false, hder]
        have hnow : Val.neList (rs.map LazyRes.value) old = false := by
          rw [neList_swap he hne, ← hflag vs hvs, ← any_eq]; exact hany
        refine ⟨_, _, _, _, _, _, rfl, rfl, ?_, .inr ⟨⟨x, false, true⟩, ?_, rfl, rfl, ?_, ?_, ?_, ?_⟩⟩
        · simp [coreTail, hen, hany, hder, SameEnv, hl, hw, invocations_append, invocations_conditionCmps]
        · simp [coreTail, hen, hany, hder, Glue.coreLive, Glue.retained, Out.map, LazyRes.through]
          cases cache <;> rfl
        · simp only [Same]
          refine ⟨os', hf, hsame, ?_, fun _ => ⟨_, _, rfl, hlast, hnow⟩⟩
          simp [coreTail, hen, hany, hder, Glue.retained]
        · simp [coreTail, hen, hany, hder, Glue.retained, Obj.lastVal, hx]
        · intro y hy
          simp only [Obj.lastVal] at hy
          rw [hx] at hy
          cases hy
          exact (Val.ne_refl he.refl _).symm
        · refine ⟨l, dl ++ conditionCmps cache (rs.map LazyRes.value) (some old), ?_, ?_, ?_, ?_⟩
          · simp [coreTail, hen, hany, hder, hl1]
          · simp [hl2]
          · intro _ hn
            have hall : (os.all fun o => o.lastVal.isSome) = true := by
              rw [List.all_eq_true]
              intro o ho
              have : o.lastVal ∈ os.map Obj.lastVal := List.mem_map_of_mem ho
              rw [hvs] at this
              obtain ⟨v, _, hv⟩ := List.mem_map.mp this
              rw [← hv]; rfl
            obtain ⟨c1, c2⟩ := hcnt hall hn
            have hlen : rs.length = ds.length := by
              have h3 := congrArg List.length hlast
              have h4 := congrArg List.length htree
              simp only [List.length_map] at h3 h4
              rw [← h3, ← sameL_length hsame, h4]
            refine ⟨?_, ?_⟩
            · simp only [DObj.tree, Tree.plainFunctions, List.map_map, c1]; rfl
            · simp only [DObj.tree, Tree.dependencies, List.map_map, conditionCmps, hen, if_true, cmps_append, List.length_append, c2,
                cmps_argsCmps _ _ hnow, List.length_map, hlen]
              rw [Nat.add_comm]; rfl
          · simp [DObj.tree, htree]
theorem inStepL (he : EquivNe D) : ∀ (ds : List (DObj D W E S)) (os : List (Obj D W E S)) (denv env : Env D W S), SameL ds os → SameEnv denv env →
    InStepL ds os denv env
  | [], os, denv, env, h, hs => by
    simp only [SameL] at h
    subst h
    refine ⟨.ok [], [], env, .ok [], [], denv, by rw [evalDeps], by rw [DObj.callAll], hs, .inr ⟨[], rfl, rfl, rfl, by simp [SameL], rfl, ?_,
      [], [], by simp, by simp, fun _ _ => ⟨rfl, rfl⟩, rfl⟩⟩
    intro vs hvs
    cases vs with
    | nil => rfl
    | cons _ _ => simp at hvs
  | d :: ds, os, denv, env, h, hs => by
    simp only [SameL] at h
    obtain ⟨o, os, hd, hds, rfl⟩ := h
    obtain ⟨q, o', env1, q', d', denv1, h1, h2, hs1, hcase⟩ := inStep he d o denv env hd hs
    unfold InStepL
    rw [evalDeps, DObj.callAll, h1, h2]
    rcases hcase with ⟨e, rfl, rfl⟩ | ⟨r, rfl, rfl, hlive, hsame, hlast, hflag, l, dl, hl1, hl2, hcnt, htree⟩
    · exact ⟨_, _, _, _, _, _, rfl, rfl, hs1, .inl ⟨e, rfl, rfl⟩⟩
    · obtain ⟨p, os', env2, p', ds', denv2, h3, h4, hs2, hcase⟩ := inStepL he ds os denv1 env1 hds hs1
      simp only [h3, h4]
      rcases hcase with ⟨e, rfl, rfl⟩ | ⟨rs, rfl, rfl, hlives, hsames, hlasts, hflags, l', dl', hl1', hl2', hcnt', htree'⟩
      · exact ⟨_, _, _, _, _, _, rfl, rfl, hs2, .inl ⟨e, rfl, rfl⟩⟩
      · refine ⟨_, _, _, _, _, _, rfl, rfl, hs2, .inr ⟨r :: rs, rfl, rfl, by simp [hlive, hlives], ?_, by simp [hlast, hlasts], ?_,
          l ++ l', dl ++ dl', by simp [hl1, hl1'], by simp [hl2, hl2'], ?_, by simp [htree, htree']⟩⟩
        · simp only [SameL]
          exact ⟨o', os', hsame, hsames, rfl⟩
        · intro vs hvs
          cases vs with
          | nil => simp at hvs
          | cons v vs =>
            simp only [List.map_cons, List.cons.injEq] at hvs
            simp only [List.any_cons, List.map_cons, Val.neList]
            rw [hflag v hvs.1, hflags vs hvs.2]
        · intro hall hn
          simp only [List.all_cons, Bool.and_eq_true] at hall
          simp only [fnCalls_append, List.append_eq_nil_iff] at hn
          have c1 := hcnt (.inl hall.1) hn.1
          have c2 := hcnt' hall.2 hn.2
          simp [cmps_append, c1, c2]
end

theorem sameL_get : ∀ {ds : List (DObj D W E S)} {os : List (Obj D W E S)}, SameL ds os → ∀ i : Nat,
    (ds[i]? = none ∧ os[i]? = none) ∨ ∃ d o, ds[i]? = some d ∧ os[i]? = some o ∧ Same d o
  | [], os, h, i => by simp only [SameL] at h; subst h; simp
  | d :: ds, os, h, i => by
    simp only [SameL] at h
    obtain ⟨o, os', hd, h, rfl⟩ := h
    cases i with
    | zero => exact .inr ⟨d, o, rfl, rfl, hd⟩
    | succ i => simpa using sameL_get h i

theorem sameL_snoc {d : DObj D W E S} {o : Obj D W E S} (hd : Same d o) : ∀ {ds : List (DObj D W E S)} {os : List (Obj D W E S)}, SameL ds os →
    SameL (ds ++ [d]) (os ++ [o])
  | [], os, h => by simp only [SameL] at h; subst h; simp only [List.nil_append, SameL]; exact ⟨o, [], hd, rfl, rfl⟩
  | d' :: ds, os, h => by
    simp only [SameL] at h
    obtain ⟨o', os', hd', h, rfl⟩ := h
    simp only [List.cons_append, SameL]
    exact ⟨o', _, hd', sameL_snoc hd h, rfl⟩

theorem sameL_set {d : DObj D W E S} {o : Obj D W E S} (hd : Same d o) : ∀ {ds : List (DObj D W E S)} {os : List (Obj D W E S)}, SameL ds os →
    ∀ i : Nat, SameL (ds.set i d) (os.set i o)
  | [], os, h, i => by simp only [SameL] at h; subst h; simp [SameL]
  | d' :: ds, os, h, i => by
    simp only [SameL] at h
    obtain ⟨o', os', hd', h, rfl⟩ := h
    cases i with
    | zero => simp only [List.set_cons_zero, SameL]; exact ⟨o, _, hd, h, rfl⟩
    | succ i => simp only [List.set_cons_succ, SameL]; exact ⟨o', _, hd', sameL_set hd h i, rfl⟩

/-- The two programs are in corresponding states. -/
structure Linked (t : DState D W E S) (s : State D W E S) : Prop where
  vars : SameL t.vars s.vars
  lz : ∀ d ∈ t.vars, ∃ f c dc ds, d = .lazy f c dc ds
  env : SameEnv t.env s.env

theorem ensure_same {dvars : List (DObj D W E S)} {vars : List (Obj D W E S)} (h : SameL dvars vars)
    (hz : ∀ d ∈ dvars, ∃ f c dc ds, d = .lazy f c dc ds) (a : ArgRef D W E S) :
    (a.dobj dvars = none ∧ (a.resolve vars).bind ensureLazy = none) ∨
    ∃ d o, a.dobj dvars = some d ∧ (a.resolve vars).bind ensureLazy = some o ∧ Same d o := by
  cases a with
  | value v => exact .inr ⟨_, _, rfl, rfl, by simp [Same]⟩
  | function u =>
    simp only [ArgRef.dobj, ArgRef.resolve, ensureLazy_function, Option.bind_some]
    by_cases hv : u.ret = .void
    · simp [hv]
    · simp only [hv, if_false]
      refine .inr ⟨_, _, rfl, rfl, ?_⟩
      simp only [Same]
      exact ⟨_, hv, Cache.empty_fits _, rfl⟩
  | var i =>
    simp only [ArgRef.dobj, ArgRef.resolve]
    rcases sameL_get h i with ⟨h1, h2⟩ | ⟨d, o, h1, h2, hs⟩
    · simp [h1, h2]
    · obtain ⟨f, c, dc, ds, rfl⟩ := hz d (List.mem_of_getElem? h1)
      have hs' := hs
      simp only [Same] at hs'
      obtain ⟨os, _, _, rfl, _⟩ := hs'
      exact .inr ⟨_, _, h1, by rw [h2]; rfl, hs⟩

theorem ensureAll_same {dvars : List (DObj D W E S)} {vars : List (Obj D W E S)} (h : SameL dvars vars)
    (hz : ∀ d ∈ dvars, ∃ f c dc ds, d = .lazy f c dc ds) : ∀ as : List (ArgRef D W E S),
    (dobjs dvars as = none ∧ (resolveAll vars as).bind ensureAll = none) ∨
    ∃ ds os, dobjs dvars as = some ds ∧ (resolveAll vars as).bind ensureAll = some os ∧ SameL ds os
  | [] => .inr ⟨[], [], rfl, rfl, by simp [SameL]⟩
  | a :: as => by
    rcases ensure_same h hz a with ⟨h1, h2⟩ | ⟨d, o, h1, h2, hs⟩
    · refine .inl ⟨by simp [dobjs, h1], ?_⟩
      rw [resolveAll]
      rcases hr : a.resolve vars with _ | x
      · rfl
      · rw [hr] at h2
        rcases resolveAll vars as with _ | xs
        · rfl
        · simp only [Option.bind_some] at h2 ⊢
          simp [ensureAll, h2]
    · rcases hr : a.resolve vars with _ | x
      · rw [hr] at h2; cases h2
      rw [hr] at h2
      simp only [Option.bind_some] at h2
      rcases ensureAll_same h hz as with ⟨h3, h4⟩ | ⟨ds, os, h3, h4, hss⟩
      · refine .inl ⟨by simp [dobjs, h1, h3], ?_⟩
        rw [resolveAll, hr]
        rcases hr2 : resolveAll vars as with _ | xs
        · rfl
        · rw [hr2] at h4
          simp only [Option.bind_some] at h4 ⊢
          simp [ensureAll, h4]
      · rcases hr2 : resolveAll vars as with _ | xs
        · rw [hr2] at h4; cases h4
        rw [hr2] at h4
        simp only [Option.bind_some] at h4
        refine .inr ⟨d :: ds, o :: os, by simp [dobjs, h1, h3], by simp [resolveAll, hr, hr2, ensureAll, h2, h4], ?_⟩
        simp only [SameL]
        exact ⟨o, os, hs, hss, rfl⟩

/-- One operation in both designs. -/
theorem linked_step (he : EquivNe D) {t : DState D W E S} {s : State D W E S} (h : Linked t s) (op : Op D W E S) (hp : op.isPoll = false) :
    (dstep t op).1 = (step .retained s op).1 ∧ SameEnv (dstep t op).2.env (step .retained s op).2.env ∧
    ((step .retained s op).1.threw = false → Linked (dstep t op).2 (step .retained s op).2) := by
  cases op with
  | mk f deps =>
    have hb : (resolveAll s.vars deps).bind (pigroLazy f) = ((resolveAll s.vars deps).bind ensureAll).map
        (fun os => .unregularized (.unwrapped (.core (.regularized f) (Cache.empty f.ret) os))) := by
      rcases resolveAll s.vars deps with _ | ds
      · rfl
      · simp only [Option.bind_some, pigroLazy]
        rcases ensureAll ds with _ | os <;> simp [detailLazy, Fun.ret]
    simp only [dstep, step, hb]
    rcases ensureAll_same h.vars h.lz deps with ⟨h1, h2⟩ | ⟨ds, os, h1, h2, hs⟩
    · simp only [h1, h2, Option.map_none]
      exact ⟨by trivial, h.env, fun _ => h⟩
    · simp only [h1, h2, Option.map_some]
      refine ⟨by trivial, h.env, fun _ => ⟨sameL_snoc ?_ h.vars, ?_, h.env⟩⟩
      · simp only [Same]
        refine ⟨os, Cache.empty_fits _, hs, rfl, ?_⟩
        cases f.ret <;> simp [Cache.empty, Cache.engaged, OptRV.default, OptRV.toBool]
      · intro d hd
        rcases List.mem_append.1 hd with hd | hd
        · exact h.lz d hd
        · simp only [List.mem_singleton] at hd; exact ⟨_, _, _, _, hd⟩
  | copy i =>
    simp only [dstep, step]
    rcases sameL_get h.vars i with ⟨h1, h2⟩ | ⟨d, o, h1, h2, hs⟩
    · simp only [h1, h2]
      exact ⟨by trivial, h.env, fun _ => h⟩
    · simp only [h1, h2]
      refine ⟨by trivial, h.env, fun _ => ⟨sameL_snoc hs h.vars, ?_, h.env⟩⟩
      intro d' hd
      rcases List.mem_append.1 hd with hd | hd
      · exact h.lz d' hd
      · simp only [List.mem_singleton] at hd; subst hd; exact h.lz _ (List.mem_of_getElem? h1)
  | call i =>
    simp only [dstep, step]
    rcases sameL_get h.vars i with ⟨h1, h2⟩ | ⟨d, o, h1, h2, hs⟩
    · simp only [h1, h2]
      exact ⟨by trivial, h.env, fun _ => h⟩
    · simp only [h1, h2]
      obtain ⟨q, o', env', q', d', denv', hev, hdc, henv, hcase⟩ := inStep he d o t.env s.env hs h.env
      obtain ⟨f, c, dc, ds, rfl⟩ := h.lz d (List.mem_of_getElem? h1)
      have hs' := hs
      simp only [Same] at hs'
      obtain ⟨os, hf, _, rfl, _⟩ := hs'
      rw [evalN_facade] at hev
      rw [call0_facade, hdc]
      have hrv : (Obj.core (.regularized f) c os : Obj D W E S).valueIsRV = (DObj.lazy f c dc ds).isVoid := by
        cases c <;> simp_all [Obj.valueIsRV, DObj.isVoid, Cache.Fits]
      rcases hx : evalN Glue.retained (.core (.regularized f) c os) s.env with ⟨p, i', env''⟩
      rw [hx] at hev
      simp only [Prod.mk.injEq] at hev
      obtain ⟨e1, e2, e3⟩ := hev
      subst e2 e3
      rcases hcase with ⟨e, rfl, rfl⟩ | ⟨r, rfl, rfl, hlive, hsame, _, _⟩
      · cases p <;> simp only [Out.map] at e1 <;> cases e1
        exact ⟨by trivial, henv, fun hn => by simp [Obs.threw] at hn⟩
      · cases p with
        | ok r' =>
          simp only [Out.map, Out.ok.injEq] at e1
          subst e1
          simp only [LazyRes.through, Glue.retained, Bool.and_eq_true] at hlive ⊢
          simp only [hlive.1, hrv]
          refine ⟨?_, henv, fun _ => ⟨sameL_set hsame h.vars i, ?_, henv⟩⟩
          · simp [Out.map]
          · intro d2 hd2
            rcases List.mem_or_eq_of_mem_set hd2 with hd2 | rfl
            · exact h.lz d2 hd2
            · have hdl : ∃ q f' c' dc' ds' env1, (DObj.lazy f c dc ds).call t.env = (q, .lazy f' c' dc' ds', env1) := by
                rw [DObj.call]
                rcases DObj.callAll ds t.env with ⟨x, ds', env1⟩
                cases x with
                | ok vs =>
                  simp only
                  split
                  · rcases UFn.invoke f .fn (tupleCTAD Val.asTuple vs) _ with ⟨x, f', env3⟩
                    cases x with
                    | ok v => simp only; split <;> exact ⟨_, _, _, _, _, _, rfl⟩
                    | error e => exact ⟨_, _, _, _, _, _, rfl⟩
                  · split <;> exact ⟨_, _, _, _, _, _, rfl⟩
                | _ => exact ⟨_, _, _, _, _, _, rfl⟩
              obtain ⟨q2, f', c', dc', ds', env1, hq⟩ := hdl
              rw [hdc] at hq
              simp only [Prod.mk.injEq] at hq
              exact ⟨_, _, _, _, hq.2.1⟩
        | _ => simp [Out.map] at e1
  | poll i => simp [Op.isPoll] at hp
  | poke f =>
    simp only [dstep, step]
    have hw : SameEnv { t.env with w := f t.env.w } { s.env with w := f s.env.w } := ⟨by simp [h.env.1], h.env.2⟩
    exact ⟨by trivial, hw, fun _ => ⟨h.vars, h.lz, hw⟩⟩

/-- Whole programs in both designs. -/
theorem linked_run (he : EquivNe D) : ∀ (ops : List (Op D W E S)) {t : DState D W E S} {s : State D W E S}, Linked t s →
    (ops.all fun op => !op.isPoll) = true →
    untilThrow (drun t ops).1 = untilThrow (run .retained s ops).1 ∧
    ((run .retained s ops).1.any Obs.threw = false → Linked (drun t ops).2 (run .retained s ops).2)
  | [], t, s, h, _ => ⟨rfl, fun _ => h⟩
  | op :: ops, t, s, h, hp => by
    simp only [List.all_cons, Bool.and_eq_true, Bool.not_eq_true'] at hp
    obtain ⟨h1, h2, h3⟩ := linked_step he h op hp.1
    simp only [drun, run, untilThrow, h1]
    cases hth : (step Glue.retained s op).1.threw with
    | true => simp [hth]
    | false =>
      obtain ⟨k1, k2⟩ := linked_run he ops (h3 hth) (by simpa using hp.2)
      refine ⟨by simp [k1], fun hn => k2 ?_⟩
      simpa [hth] using hn

end Pigro
