import Verif.Proofs.FirstDesign
/-!
# The first design always returns what eager evaluation returns, also after exceptions
-/
namespace Pigro
variable {D W E S O : Type} [CxxData D]

omit [CxxData D] in
/-- Result or exception of `c` are determined by its arguments. -/
def MeaningE.Pure (m : MeaningE D W E S O) (c : FnCode D W E S) : Prop := ∀ s args w, (c.run s args w).1 = m.fn c args

mutual
/-- Every cached value is the value of the function on the arguments in `dependencies_cache`. -/
def ConsD (m : MeaningE D W E S O) : DObj D W E S → Prop
  | .value _ => True
  | .function _ => True
  | .lazy u cache dc ds => cache.Fits u.ret ∧
      (m.Pure u.toFnCode → ∀ v, cache.val? = some v → ∃ old x, dc = some old ∧ m.fn u.toFnCode (tupleCTAD Val.asTuple old) = .ok x ∧
        v = u.ret.regularize x) ∧ ConsDL m ds
/-- Element-wise. -/
def ConsDL (m : MeaningE D W E S O) : List (DObj D W E S) → Prop
  | [] => True
  | d :: ds => ConsD m d ∧ ConsDL m ds
end

mutual
theorem consD_call (m : MeaningE D W E S O) : ∀ (d : DObj D W E S) (env : Env D W S), ConsD m d →
    ConsD m (d.call env).2.1 ∧ (d.call env).2.1.tree = d.tree
  | .value v, env, h => by rw [DObj.call]; exact ⟨h, rfl⟩
  | .function u, env, h => by
    rw [DObj.call]
    simp only [UFn.invoke]
    rcases u.run u.st [] env.w with ⟨x, st, w'⟩
    cases x <;> simp [ConsD, DObj.tree]
  | .lazy u cache dc ds, env, h => by
    simp only [ConsD] at h
    obtain ⟨hf, hc, hds⟩ := h
    obtain ⟨k1, k2⟩ := consD_callAll m ds env hds
    rw [DObj.call]
    rcases hx : DObj.callAll ds env with ⟨q, ds', env1⟩
    rw [hx] at k1 k2
    have hkeep : ConsD m (.lazy u cache dc ds') ∧ (DObj.lazy u cache dc ds').tree = (DObj.lazy u cache dc ds).tree := by
      simp only [ConsD, DObj.tree, k2]; exact ⟨⟨hf, hc, k1⟩, trivial⟩
    cases q with
    | ok vs =>
      simp only
      split
      · simp only [UFn.invoke]
        rcases hr : u.run u.st (tupleCTAD Val.asTuple vs) env1.w with ⟨x, st, w'⟩
        cases x with
        | error e => simp only [ConsD, DObj.tree, k2]; exact ⟨⟨hf, hc, k1⟩, trivial⟩
        | ok v =>
          have hval := Cache.assign_val? hf v
          have hder := Cache.deref_of_val? _ hval
          simp only [hder, ConsD, DObj.tree, k2]
          refine ⟨⟨Cache.assign_fits _ hf, ?_, k1⟩, trivial⟩
          intro hp y hy
          rw [hval] at hy
          cases hy
          refine ⟨vs, v, rfl, ?_, rfl⟩
          rw [← hp u.st (tupleCTAD Val.asTuple vs) env1.w, hr]
      · split <;> exact hkeep
    | _ => exact hkeep
theorem consD_callAll (m : MeaningE D W E S O) : ∀ (ds : List (DObj D W E S)) (env : Env D W S), ConsDL m ds →
    ConsDL m (DObj.callAll ds env).2.1 ∧ (DObj.callAll ds env).2.1.map DObj.tree = ds.map DObj.tree
  | [], env, h => by rw [DObj.callAll]; exact ⟨h, rfl⟩
  | d :: ds, env, h => by
    simp only [ConsDL] at h
    obtain ⟨k1, k2⟩ := consD_call m d env h.1
    rw [DObj.callAll]
    rcases hx : d.call env with ⟨q, d', env1⟩
    rw [hx] at k1 k2
    cases q with
    | ok v =>
      obtain ⟨k3, k4⟩ := consD_callAll m ds env1 h.2
      simp only [ConsDL, List.map_cons, k2, k4]
      exact ⟨⟨k1, k3⟩, trivial⟩
    | _ => simp only [ConsDL, List.map_cons, k2]; exact ⟨⟨k1, h.2⟩, trivial⟩
end

omit [CxxData D] in
theorem eagerL_length (m : MeaningE D W E S O) (o : O) : ∀ (ts : List (Tree D W E S)) (vs : List (Val D)), m.eagerL o ts = .ok vs → ts.length = vs.length
  | [], vs, h => by simp only [MeaningE.eagerL, Except.ok.injEq] at h; subst h; rfl
  | t :: ts, vs, h => by
    rw [MeaningE.eagerL] at h
    split at h
    · cases h
    · split at h
      · cases h
      · rename_i h2
        cases h
        simp [eagerL_length m o ts _ h2]

omit [CxxData D] in
/-- With no lone tuple, the arguments are the values. -/
theorem ctad_eager (m : MeaningE D W E S O) (o : O) (ts : List (Tree D W E S)) (vs : List (Val D)) (h : m.eagerL o ts = .ok vs)
    (hl : ∀ t, ts = [t] → ∀ o vs, m.eager o t ≠ .ok (.tup vs)) : tupleCTAD Val.asTuple vs = vs := by
  apply tupleCTAD_id
  rintro x rfl
  have hlen := eagerL_length m o ts _ h
  match ts, hlen with
  | [t], _ =>
    have ht := hl t rfl o
    simp only [MeaningE.eagerL] at h
    split at h
    · cases h
    · rename_i v hv
      simp only [Except.ok.injEq, List.cons.injEq, and_true] at h
      subst h
      cases v with
      | tup vs => exact absurd hv (ht vs)
      | _ => rfl

/-- The outcome of eager evaluation as outcome of a call. -/
def outOf {α : Type} : Except E α → Out E α
  | .ok v => .ok v
  | .error e => .thrown e

mutual
theorem fresh_call (hs : SoundNe D) (m : MeaningE D W E S O) : ∀ (d : DObj D W E S) (env : Env D W S), ConsD m d → m.Ok d.tree → m.NoLone d.tree →
    (d.call env).1 = outOf (m.eager (m.obs env.w) d.tree) ∧ m.obs (d.call env).2.2.w = m.obs env.w
  | .value v, env, h, _, _ => by rw [DObj.call]; simp [DObj.tree, MeaningE.eager, outOf]
  | .function u, env, h, hok, _ => by
    simp only [DObj.tree] at hok
    cases hok with
    | function _ hrun =>
      obtain ⟨h1, h2⟩ := hrun u.st env.w
      rw [DObj.call]
      simp only [UFn.invoke, DObj.tree, MeaningE.eager, ← h1]
      rcases hr : u.run u.st [] env.w with ⟨x, st, w'⟩
      rw [hr] at h2
      cases x <;> exact ⟨rfl, h2⟩
  | .lazy u cache dc ds, env, h, hok, hnl => by
    simp only [ConsD] at h
    obtain ⟨hf, hc, hds⟩ := h
    simp only [DObj.tree] at hok hnl
    cases hok with
    | lazy _ _ hrun hoks =>
    cases hnl with
    | lazy _ _ hlone hnls =>
    have hp : m.Pure u.toFnCode := fun s a w => (hrun s a w).1
    obtain ⟨k1, k2⟩ := fresh_callAll hs m ds env hds (fun d hd => hoks _ (List.mem_map_of_mem hd)) (fun d hd => hnls _ (List.mem_map_of_mem hd))
    rw [DObj.call, DObj.tree, MeaningE.eager]
    rcases hx : DObj.callAll ds env with ⟨q, ds', env1⟩
    rw [hx] at k1 k2
    simp only at k1 k2
    subst k1
    rcases he : m.eagerL (m.obs env.w) (ds.map DObj.tree) with e | vs
    · simp only [outOf, Out.map]
      exact ⟨trivial, k2⟩
    · simp only [outOf]
      have hct := ctad_eager m _ _ _ he hlone
      cases hch : (!cache.engaged || argsNe vs dc) with
      | true =>
        simp only [if_true, UFn.invoke, hct]
        obtain ⟨h1, h2⟩ := hrun u.st vs env1.w
        rcases hr : u.run u.st vs env1.w with ⟨x, st, w'⟩
        rw [hr] at h1 h2
        simp only at h1 h2
        rw [← h1]
        cases x with
        | error e => simp only; exact ⟨trivial, by rw [h2, k2]⟩
        | ok v =>
          have hder := Cache.deref_of_val? _ (Cache.assign_val? hf v)
          simp only [hder]
          exact ⟨trivial, by rw [h2, k2]⟩
      | false =>
        simp only [Bool.or_eq_false_iff, Bool.not_eq_false'] at hch
        obtain ⟨hen, hne⟩ := hch
        have hsm : ∃ x, cache.val? = some x := by rw [Cache.engaged_val?] at hen; exact Option.isSome_iff_exists.mp hen
        obtain ⟨x, hx2⟩ := hsm
        have hder := Cache.deref_of_val? _ hx2
        obtain ⟨old, y, rfl, hfn, rfl⟩ := hc hp x hx2
        simp only [argsNe] at hne
        have := Val.neList_sound hs _ _ hne
        subst this
        rw [hct] at hfn
        simp only [Bool.false_eq_true, if_false, hder, hfn]
        exact ⟨trivial, k2⟩
theorem fresh_callAll (hs : SoundNe D) (m : MeaningE D W E S O) : ∀ (ds : List (DObj D W E S)) (env : Env D W S), ConsDL m ds → (∀ d ∈ ds, m.Ok d.tree) →
    (∀ d ∈ ds, m.NoLone d.tree) →
    (DObj.callAll ds env).1 = outOf (m.eagerL (m.obs env.w) (ds.map DObj.tree)) ∧ m.obs (DObj.callAll ds env).2.2.w = m.obs env.w
  | [], env, h, _, _ => by rw [DObj.callAll]; simp [MeaningE.eagerL, outOf]
  | d :: ds, env, h, hok, hnl => by
    simp only [ConsDL] at h
    obtain ⟨k1, k2⟩ := fresh_call hs m d env h.1 (hok d (by simp)) (hnl d (by simp))
    rw [DObj.callAll, List.map_cons, MeaningE.eagerL]
    rcases hx : d.call env with ⟨q, d', env1⟩
    rw [hx] at k1 k2
    simp only at k1 k2
    subst k1
    rcases he : m.eager (m.obs env.w) d.tree with e | v
    · simp only [outOf, Out.map]; exact ⟨trivial, k2⟩
    · obtain ⟨k3, k4⟩ := fresh_callAll hs m ds env1 h.2 (fun d hd => hok d (by simp [hd])) (fun d hd => hnl d (by simp [hd]))
      rw [k2] at k3 k4
      simp only [outOf, k3]
      refine ⟨?_, k4⟩
      rcases m.eagerL (m.obs env.w) (ds.map DObj.tree) with e | vs <;> rfl
end

/-- The variables of a program of the first design. -/
structure InvD (m : MeaningE D W E S O) (ts : List (Tree D W E S)) (s : DState D W E S) : Prop where
  cons : ∀ d ∈ s.vars, ConsD m d
  trees : s.vars.map DObj.tree = ts
  lz : ∀ t ∈ ts, ∃ c us, t = .lazy c us

omit [CxxData D] in
theorem consDL_iff (m : MeaningE D W E S O) : ∀ {ds : List (DObj D W E S)}, ConsDL m ds ↔ ∀ d ∈ ds, ConsD m d
  | [] => by simp [ConsDL]
  | d :: ds => by simp [ConsDL, consDL_iff m (ds := ds)]

omit [CxxData D] in
theorem dobjs_inv (m : MeaningE D W E S O) {ts : List (Tree D W E S)} {vars : List (DObj D W E S)} (hc : ∀ d ∈ vars, ConsD m d)
    (ht : vars.map DObj.tree = ts) : ∀ as : List (ArgRef D W E S),
    (dobjs vars as = none ∧ argTrees ts as = none) ∨ ∃ ds, dobjs vars as = some ds ∧ argTrees ts as = some (ds.map DObj.tree) ∧ ConsDL m ds
  | [] => .inr ⟨[], rfl, rfl, trivial⟩
  | a :: as => by
    have ha : (a.dobj vars = none ∧ a.tree ts = none) ∨ ∃ d, a.dobj vars = some d ∧ a.tree ts = some d.tree ∧ ConsD m d := by
      cases a with
      | value v => exact .inr ⟨_, rfl, by simp [ArgRef.tree, DObj.tree], trivial⟩
      | function u =>
        simp only [ArgRef.dobj, ArgRef.tree]
        split
        · exact .inl ⟨rfl, rfl⟩
        · exact .inr ⟨_, rfl, by simp [DObj.tree], trivial⟩
      | var i =>
        simp only [ArgRef.dobj, ArgRef.tree, ← ht, List.getElem?_map]
        rcases hv : vars[i]? with _ | d
        · exact .inl ⟨rfl, rfl⟩
        · exact .inr ⟨d, rfl, rfl, hc d (List.mem_of_getElem? hv)⟩
    rw [dobjs, argTrees]
    rcases ha with ⟨h1, h2⟩ | ⟨d, h1, h2, h3⟩
    · exact .inl ⟨by simp [h1], by simp [h2]⟩
    · rcases dobjs_inv m hc ht as with ⟨h4, h5⟩ | ⟨ds, h4, h5, h6⟩
      · exact .inl ⟨by simp [h4], by simp [h5]⟩
      · exact .inr ⟨d :: ds, by simp [h1, h4], by simp [h2, h5], h3, h6⟩

theorem dstep_inv (m : MeaningE D W E S O) {ts : List (Tree D W E S)} {s : DState D W E S} (h : InvD m ts s) (op : Op D W E S) :
    InvD m (stepTrees ts op) (dstep s op).2 := by
  cases op with
  | mk f deps =>
    simp only [stepTrees, dstep]
    rcases dobjs_inv m h.cons h.trees deps with ⟨h1, h2⟩ | ⟨ds, h1, h2, h3⟩
    · rw [h1, h2]; exact h
    · rw [h1, h2]
      refine ⟨?_, by simp [h.trees, DObj.tree], ?_⟩
      · intro d hd
        rcases List.mem_append.1 hd with hd | hd
        · exact h.cons d hd
        · simp only [List.mem_singleton] at hd
          subst hd
          simp only [ConsD]
          refine ⟨Cache.empty_fits _, fun _ v hv => ?_, h3⟩
          cases hr : f.ret <;> rw [hr] at hv <;> simp [Cache.empty, Cache.val?, OptRV.default, OptRV.toBool] at hv
      · intro t ht
        rcases List.mem_append.1 ht with ht | ht
        · exact h.lz t ht
        · simp only [List.mem_singleton] at ht; exact ⟨_, _, ht⟩
  | copy i =>
    simp only [stepTrees, dstep, ← h.trees, List.getElem?_map]
    rcases hv : s.vars[i]? with _ | d
    · simp only [Option.map_none]; exact ⟨h.cons, rfl, by rw [h.trees]; exact h.lz⟩
    · simp only [Option.map_some]
      have hm := List.mem_of_getElem? hv
      refine ⟨?_, by simp, ?_⟩
      · intro d' hd
        rcases List.mem_append.1 hd with hd | hd
        · exact h.cons d' hd
        · simp only [List.mem_singleton] at hd; subst hd; exact h.cons _ hm
      · intro t ht
        rcases List.mem_append.1 ht with ht | ht
        · exact h.lz t (by rw [← h.trees]; exact ht)
        · simp only [List.mem_singleton] at ht; subst ht
          exact h.lz _ (by rw [← h.trees]; exact List.mem_map_of_mem hm)
  | call i =>
    simp only [stepTrees, dstep]
    rcases hv : s.vars[i]? with _ | d
    · exact h
    · have hm := List.mem_of_getElem? hv
      obtain ⟨k1, k2⟩ := consD_call m d s.env (h.cons d hm)
      refine ⟨?_, ?_, h.lz⟩
      · intro d' hd
        rcases List.mem_or_eq_of_mem_set hd with hd | rfl
        · exact h.cons d' hd
        · exact k1
      · rw [← h.trees, List.map_set, k2]
        apply set_self
        rw [List.getElem?_map, hv]; rfl
  | poll i => exact h
  | poke f => exact ⟨h.cons, h.trees, h.lz⟩
where
  set_self {α : Type} {l : List α} {i : Nat} {a : α} (h : l[i]? = some a) : l.set i a = l := by
    obtain ⟨h1, rfl⟩ := List.getElem?_eq_some_iff.1 h
    exact List.set_getElem_self h1

theorem drun_inv (m : MeaningE D W E S O) : ∀ (ops : List (Op D W E S)) {ts : List (Tree D W E S)} {s : DState D W E S}, InvD m ts s →
    InvD m (runTrees ts ops) (drun s ops).2
  | [], _, _, h => h
  | op :: ops, _, _, h => drun_inv m ops (dstep_inv m h op)

end Pigro
