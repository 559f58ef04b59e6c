import Verif.Proofs.LazyHist
/-!
# Independence of the log; subtrees; first evaluations
-/
namespace Pigro
variable {D W E S O : Type} [CxxData D]

/-! ### The log has no influence -/

theorem coreTail_log (g : Glue) (f : Fun D W E S) (cache : Cache D) (rs : List (LazyRes D))
    (w : W) (l : List (Ev D S)) :
    coreTail g f cache rs ⟨w, l⟩ =
      ((coreTail g f cache rs ⟨w, []⟩).1, (coreTail g f cache rs ⟨w, []⟩).2.1,
        (coreTail g f cache rs ⟨w, []⟩).2.2.1,
        ⟨(coreTail g f cache rs ⟨w, []⟩).2.2.2.w, l ++ (coreTail g f cache rs ⟨w, []⟩).2.2.2.log⟩) := by
  unfold coreTail
  simp only
  split
  · split
    · simp
    · rename_i values _
      rcases f with u | u
      all_goals
        simp only [Fun.call, UFn.invoke]
        rcases hi : (u.run u.st _ w).1 with e | v
        · simp [Out.map]
        · simp only
          split <;> simp
  · split <;> simp

mutual
theorem evalN_log (g : Glue) (o : Obj D W E S) (w : W) (l : List (Ev D S)) :
    evalN g o ⟨w, l⟩ =
      ((evalN g o ⟨w, []⟩).1, (evalN g o ⟨w, []⟩).2.1,
        ⟨(evalN g o ⟨w, []⟩).2.2.w, l ++ (evalN g o ⟨w, []⟩).2.2.log⟩) := by
  match o with
  | .lazyValue v c => simp [evalN]
  | .core f cache deps =>
    have h := evalDeps_log g deps w l
    rcases h0 : evalDeps g deps ⟨w, []⟩ with ⟨q, deps', ⟨w1, l1⟩⟩
    rw [h0] at h
    simp only at h
    rcases q with rs | e | _ | _
    · rw [evalN_core_ok g f cache deps _ h, evalN_core_ok g f cache deps _ h0]
      rw [coreTail_log g f cache rs w1 (l ++ l1), coreTail_log g f cache rs w1 l1]
      simp
    all_goals
      rw [evalN_core_fail g f cache deps _ h rfl, evalN_core_fail g f cache deps _ h0 rfl]
  | .unwrapped i =>
    have h := evalN_log g i w l
    rw [evalN_unwrapped, evalN_unwrapped, h]
  | .unregularized i =>
    have h := evalN_log g i w l
    rw [evalN_unregularized, evalN_unregularized, h]
theorem evalDeps_log (g : Glue) (ds : List (Obj D W E S)) (w : W) (l : List (Ev D S)) :
    evalDeps g ds ⟨w, l⟩ =
      ((evalDeps g ds ⟨w, []⟩).1, (evalDeps g ds ⟨w, []⟩).2.1,
        ⟨(evalDeps g ds ⟨w, []⟩).2.2.w, l ++ (evalDeps g ds ⟨w, []⟩).2.2.log⟩) := by
  match ds with
  | [] => simp [evalDeps]
  | d :: ds =>
    have h := evalN_log g d w l
    rcases h0 : evalN g d ⟨w, []⟩ with ⟨q, d', ⟨w1, l1⟩⟩
    rw [h0] at h
    simp only at h
    rcases q with r | e | _ | _
    · simp only [evalDeps, h, h0]
      rw [evalDeps_log g ds w1 (l ++ l1), evalDeps_log g ds w1 l1]
      simp
    all_goals simp only [evalDeps, h, h0]
end

theorem call0_log (g : Glue) (c : FnCode D W E S) (us : List (Tree D W E S)) (o : Obj D W E S)
    (hsh : Shape (.lazy c us) o) (w : W) (l : List (Ev D S)) :
    call0 g o ⟨w, l⟩ =
      ((call0 g o ⟨w, []⟩).1, (call0 g o ⟨w, []⟩).2.1,
        ⟨(call0 g o ⟨w, []⟩).2.2.w, l ++ (call0 g o ⟨w, []⟩).2.2.log⟩) := by
  simp only [Shape] at hsh
  obtain ⟨u, cache, ds, rfl, hf, hds, rfl⟩ := hsh
  rw [call0_facade, call0_facade, evalN_log]

/-! ### First evaluations report a change -/

theorem coreTail_first (g : Glue) (f : Fun D W E S) (cache : Cache D) (rs : List (LazyRes D))
    (env : Env D W S) (hc : cache.val? = none) (r : LazyRes D)
    (h : (coreTail g f cache rs env).1 = .ok r) : r.isChanged = true := by
  have he : cache.engaged = false := by rw [Cache.engaged_val?, hc]; rfl
  unfold coreTail at h
  simp only [he, Bool.not_false, Bool.true_or, if_true] at h
  split at h
  · cases h
  · rcases f with u | u
    all_goals
      simp only [Fun.call] at h
      rcases hi : (u.invoke _ _ env) with ⟨_ | v, u', env'⟩
      · rw [hi] at h; simp [Out.map] at h
      · rw [hi] at h
        simp only at h
        split at h
        · cases h
          simp only
          cases cache with
          | opt q => cases q with
            | none => rfl
            | some x => simp [Cache.val?] at hc
          | rv q => rcases q with ⟨b⟩; cases b with
            | false => rfl
            | true => exact nomatch he
        · cases h

theorem evalN_first (g : Glue) (c : FnCode D W E S) (us : List (Tree D W E S)) (o : Obj D W E S)
    (env : Env D W S) (hsh : Shape (.lazy c us) o) (hl : o.lastVal = none) (r : LazyRes D)
    (h : (evalN g o env).1 = .ok r) : r.isChanged = true := by
  simp only [Shape] at hsh
  obtain ⟨u, cache, ds, rfl, hf, hds, rfl⟩ := hsh
  simp only [Obj.lastVal] at hl
  rw [evalN_facade] at h
  rcases h' : evalDeps g ds env with ⟨q, deps', env1⟩
  rcases q with rs | e | _ | _
  · rw [evalN_core_ok g _ cache ds env h'] at h
    simp only at h
    rcases ht : (coreTail g (.regularized u) cache rs env1).1 with r' | _ | _ | _
    · rw [ht] at h
      simp only [Out.map, Out.ok.injEq] at h
      rw [← h]
      exact coreTail_first g _ cache rs env1 hl r' ht
    all_goals rw [ht] at h; simp [Out.map] at h
  all_goals rw [evalN_core_fail g _ cache ds env h' rfl] at h; simp [Out.map] at h

theorem evalN_void (g : Glue) (c : FnCode D W E S) (us : List (Tree D W E S)) (o : Obj D W E S)
    (env : Env D W S) (hsh : Shape (.lazy c us) o) (hv : c.ret ≠ .val) (r : LazyRes D)
    (h : (evalN g o env).1 = .ok r) : r.value = .rvoid := by
  simp only [Shape] at hsh
  obtain ⟨u, cache, ds, rfl, hf, hds, rfl⟩ := hsh
  rw [evalN_facade] at h
  have hcache : ∀ (q : Cache D) v, q.Fits u.ret → q.deref = some v → v = .rvoid := by
    intro q v hq hd
    cases q with
    | opt x => exact absurd hq hv
    | rv x => simpa [Cache.deref] using hd.symm
  have htail : ∀ rs env r, (coreTail g (.regularized u) cache rs env).1 = .ok r →
      r.value = .rvoid := by
    intro rs env r h
    unfold coreTail at h
    simp only at h
    split at h
    · split at h
      · cases h
      · simp only [Fun.call] at h
        rcases hi : (u.invoke .fn _ env) with ⟨_ | v, u', env'⟩
        · rw [hi] at h; simp [Out.map] at h
        · rw [hi] at h
          simp only at h
          split at h
          · rename_i v' hd
            cases h
            exact hcache _ _ (Cache.assign_fits _ hf) hd
          · cases h
    · split at h
      · rename_i v' hd
        cases h
        exact hcache _ _ hf hd
      · cases h
  rcases h' : evalDeps g ds env with ⟨q, deps', env1⟩
  rcases q with rs | e | _ | _
  · rw [evalN_core_ok g _ cache ds env h'] at h
    simp only at h
    rcases ht : (coreTail g (.regularized u) cache rs env1).1 with r' | _ | _ | _
    · rw [ht] at h
      simp only [Out.map, Out.ok.injEq] at h
      rw [← h]
      exact htail _ _ r' ht
    all_goals rw [ht] at h; simp [Out.map] at h
  all_goals rw [evalN_core_fail g _ cache ds env h' rfl] at h; simp [Out.map] at h

/-! ### Subtrees and re-evaluation -/

omit [CxxData D] in
theorem nodup_flatten_unique {α β : Type} (f : α → List β) (l : List α)
    (h : (l.map f).flatten.Nodup) {a b : α} (ha : a ∈ l) (hb : b ∈ l) {x : β} (hxa : x ∈ f a)
    (hxb : x ∈ f b) : a = b := by
  induction l with
  | nil => cases ha
  | cons c l ih =>
    simp only [List.map_cons, List.flatten_cons, List.nodup_append] at h
    obtain ⟨_, h2, h3⟩ := h
    have hin : ∀ d ∈ l, x ∈ f d → x ∈ (l.map f).flatten := fun d hd hx =>
      List.mem_flatten.2 ⟨f d, List.mem_map.2 ⟨d, hd, rfl⟩, hx⟩
    rcases List.mem_cons.1 ha with rfl | ha' <;> rcases List.mem_cons.1 hb with rfl | hb'
    · rfl
    · exact absurd rfl (h3 x hxa x (hin b hb' hxb))
    · exact absurd rfl (h3 x hxb x (hin a ha' hxa))
    · exact ih h2 ha' hb'

theorem recalc_ids (m : Meaning D W E S O) (o1 o2 : O) (t : Tree D W E S) :
    ∀ x ∈ (m.recalc o1 o2 t).map (·.1), x ∈ t.postIds := by
  match t with
  | .value _ => simp [Meaning.recalc]
  | .function _ => simp [Meaning.recalc]
  | .lazy c ds =>
    intro x hx
    rw [Meaning.recalc, List.map_append, List.mem_append] at hx
    rw [Tree.postIds, List.mem_append]
    rcases hx with hx | hx
    · left
      rw [List.map_flatten, List.mem_flatten] at hx
      obtain ⟨l, hl, hxl⟩ := hx
      simp only [List.map_map, List.mem_map, Function.comp] at hl
      obtain ⟨d, hd, rfl⟩ := hl
      exact List.mem_flatten.2 ⟨d.postIds, List.mem_map.2 ⟨d, hd, rfl⟩, recalc_ids m o1 o2 d x hxl⟩
    · right
      split at hx
      · simpa using hx
      · simp at hx

omit [CxxData D] in
theorem within_ids {c : FnCode D W E S} {ds : List (Tree D W E S)} {t : Tree D W E S}
    (h : Tree.Within (.lazy c ds) t) : c.id ∈ t.postIds := by
  induction h with
  | refl => simp [Tree.postIds]
  | dep c' hd _ ih =>
    rw [Tree.postIds, List.mem_append]
    exact .inl (List.mem_flatten.2 ⟨_, List.mem_map.2 ⟨_, hd, rfl⟩, ih⟩)

theorem recalc_mem_iff (m : Meaning D W E S O) (o1 o2 : O) {c : FnCode D W E S}
    {ds : List (Tree D W E S)} {t : Tree D W E S} (h : Tree.Within (.lazy c ds) t) :
    t.postIds.Nodup → (c.id ∈ (m.recalc o1 o2 t).map (·.1) ↔
      (ds.map fun d => Val.ne (m.eager o1 d) (m.eager o2 d)).any id = true) := by
  induction h with
  | refl =>
    intro hnd
    rw [Tree.postIds, List.nodup_append] at hnd
    rw [Meaning.recalc, List.map_append, List.mem_append]
    constructor
    · rintro (hx | hx)
      · exfalso
        rw [List.map_flatten, List.mem_flatten] at hx
        obtain ⟨l, hl, hxl⟩ := hx
        simp only [List.map_map, List.mem_map, Function.comp] at hl
        obtain ⟨d, hd, rfl⟩ := hl
        exact hnd.2.2 c.id (List.mem_flatten.2 ⟨d.postIds, List.mem_map.2 ⟨d, hd, rfl⟩,
          recalc_ids m o1 o2 d _ hxl⟩) c.id (by simp) rfl
      · split at hx
        · assumption
        · simp at hx
    · intro h
      right
      rw [if_pos h]
      simp
  | @dep d ds' c' hd hw ih =>
    intro hnd
    rw [Tree.postIds, List.nodup_append] at hnd
    have hdn : d.postIds.Nodup :=
      (List.sublist_flatten_of_mem (List.mem_map.2 ⟨d, hd, rfl⟩)).nodup hnd.1
    rw [← ih hdn, Meaning.recalc, List.map_append, List.mem_append]
    constructor
    · rintro (hx | hx)
      · rw [List.map_flatten, List.mem_flatten] at hx
        obtain ⟨l, hl, hxl⟩ := hx
        simp only [List.map_map, List.mem_map, Function.comp] at hl
        obtain ⟨d', hd', rfl⟩ := hl
        have := nodup_flatten_unique Tree.postIds ds' hnd.1 hd hd' (within_ids hw)
          (recalc_ids m o1 o2 d' _ hxl)
        rw [this]; exact hxl
      · exfalso
        split at hx
        · simp only [List.map_cons, List.map_nil, List.mem_singleton] at hx
          exact hnd.2.2 c.id (List.mem_flatten.2 ⟨d.postIds, List.mem_map.2 ⟨d, hd, rfl⟩,
            within_ids hw⟩) c'.id (by simp) hx
        · simp at hx
    · intro hx
      left
      rw [List.map_flatten, List.mem_flatten]
      exact ⟨_, List.mem_map.2 ⟨_, List.mem_map.2 ⟨d, hd, rfl⟩, rfl⟩, hx⟩

/-- Exact events of a second evaluation. -/
theorem call_recalc (hs : SoundNe D) (hr : ReflNe D) (g : Glue) (hg : g.Retains)
    (m : Meaning D W E S O) (w : W) (ops1 ops2 : List (Op D W E S)) (i : Nat) (t : Tree D W E S)
    (ht : (runTrees [] ops1)[i]? = some t) (hok : TreeOk g m t)
    (hc : ∀ o, (after g w ops1).vars[i]? = some o → Cons m t o)
    (hne : ∀ op ∈ ops2, ¬ op.evaluates i) :
    let s1 := after g w ops1
    let s2 := after g w (ops1 ++ .call i :: ops2)
    (step g s2 (.call i)).1 = .ret (.ok (m.result (m.obs s2.env.w) t)) ∧
    fnCalls (step g s2 (.call i)).2.env.log =
      fnCalls s2.env.log ++ m.recalc (m.obs s1.env.w) (m.obs s2.env.w) t ∧
    cmps (step g s2 (.call i)).2.env.log =
      cmps s2.env.log ++ m.recmp (m.obs s1.env.w) (m.obs s2.env.w) t := by
  intro s1 s2
  obtain ⟨o, c, us, ho, rfl, hsh⟩ := vars_of_tree g w ops1 i t ht
  obtain ⟨r, o', env', he, _, _, _, _, hlast, _⟩ :=
    evalN_stepOk hs g m _ o s1.env hsh hok.1 hok.2.1 hok.2.2 (hc o ho)
  have hlast := hlast hg
  have hsh' : Shape (.lazy c us) o' := by
    have := evalN_shape g _ _ s1.env hsh; rw [he] at this; exact this
  have hobj := call0_obj g c us o s1.env hsh
  have hs2 : s2.vars[i]? = some o' := by
    have : s2 = (run g (step g s1 (.call i)).2 ops2).2 := by
      simp only [s2, after, run_append, run]
      rfl
    rw [this]
    refine run_frame g ops2 i o' _ ?_ hne
    rw [step_call g s1 i o ho]
    simp only
    rw [hobj, he]
    exact set_get _ _ _ _ ho
  have hcons' := hlast.cons
  obtain ⟨r2, o2, env2, he2, _, _, _, _, _, hex⟩ :=
    evalN_stepOk hs g m _ o' s2.env hsh' hok.1 hok.2.1 hok.2.2 hcons'
  obtain ⟨_, h1, h2⟩ := hex hr
  rw [step_call g s2 i o' hs2]
  have hobj2 := call0_obj g c us o' s2.env hsh'
  refine ⟨?_, ?_, ?_⟩
  · rw [call0_stepOk hs g m c us o' s2.env hsh' hok hcons']
  · simp only; rw [hobj2, he2]; simp only; rw [h1, expect_lastAll m _ _ _ _ hlast]
  · simp only; rw [hobj2, he2]; simp only; rw [h2, expectCmp_lastAll m _ _ _ _ hsh' hlast]

/-! ### Failing evaluations -/

theorem evalN_throw_lastVal (g : Glue) (c : FnCode D W E S) (us : List (Tree D W E S))
    (o : Obj D W E S) (env : Env D W S) (hsh : Shape (.lazy c us) o)
    (h : (evalN g o env).1.isOk = false) (hub : (evalN g o env).1.defined = true) :
    (evalN g o env).2.1.lastVal = o.lastVal := by
  simp only [Shape] at hsh
  obtain ⟨u, cache, ds, rfl, hf, hds, rfl⟩ := hsh
  rw [evalN_facade] at h hub ⊢
  simp only [Obj.lastVal]
  cases (g.facadeParamByValue || g.unwrapParamByValue) with
  | true => simp [keep, Obj.lastVal]
  | false =>
    simp only [keep_false]
    rcases h' : evalDeps g ds env with ⟨q, deps', env1⟩
    rcases q with rs | e | _ | _
    · rw [evalN_core_ok g _ cache ds env h'] at h hub ⊢
      simp only [Obj.lastVal]
      have hcache : (coreTail g (.regularized u) cache rs env1).2.2.1 = cache := by
        simp only at h hub
        unfold coreTail at h hub ⊢
        simp only at h hub ⊢
        split
        · rename_i hch
          simp only [hch, if_true] at h hub
          split
          · rfl
          · rename_i values hv
            rw [hv] at h hub
            simp only [Fun.call] at h hub ⊢
            rcases hi : (u.invoke .fn values env1) with ⟨_ | v, u', env'⟩
            · rfl
            · rw [hi] at h hub
              simp only at h hub ⊢
              split
              · rename_i v' hd
                rw [hd] at h
                simp [Out.map, Out.isOk] at h
              · rename_i hd
                rw [hd] at hub
                simp [Out.map, Out.defined] at hub
        · split <;> rfl
      rw [hcache]
      cases g.bindFrontCopies <;> rfl
    all_goals
      rw [evalN_core_fail g _ cache ds env h' rfl]
      rfl

theorem evalN_empty_invokes (g : Glue) (c : FnCode D W E S) (us : List (Tree D W E S))
    (o : Obj D W E S) (env : Env D W S) (hsh : Shape (.lazy c us) o)
    (hsafe : g.SafeFor (.lazy c us)) (hl : o.lastVal = none) (r : LazyRes D)
    (h : (evalN g o env).1 = .ok r) :
    ∃ new args, fnCalls (evalN g o env).2.2.log = fnCalls env.log ++ new ++ [(c.id, args)] := by
  simp only [Shape] at hsh
  obtain ⟨u, cache, ds, rfl, hf, hds, rfl⟩ := hsh
  simp only [Obj.lastVal] at hl
  rw [evalN_facade] at h ⊢
  rcases h' : evalDeps g ds env with ⟨q, deps', env1⟩
  have hdef := evalDeps_defined g us ds env hds hsafe.sub
  obtain ⟨evs, _, hlog, _⟩ := (evalDeps_oneCall g us ds env hds).ex
  rw [h'] at hdef hlog
  rcases q with rs | e | _ | _
  · rw [evalN_core_ok g _ cache ds env h']
    have := (coreTail_exact g u cache rs env1 hf (hdef.2 rs rfl)).1
    simp only [hl] at this
    simp only
    rw [this]
    simp only at hlog
    rw [hlog, fnCalls_append]
    exact ⟨fnCalls evs, _, by simp; rfl⟩
  all_goals rw [evalN_core_fail g _ cache ds env h' rfl] at h; simp [Out.map] at h

theorem evalDeps_throw (g : Glue) (before later : List (Obj D W E S)) (d : Obj D W E S) :
    ∀ (env : Env D W S) (rs : List (LazyRes D)) (before' : List (Obj D W E S))
      (env1 env2 : Env D W S) (d' : Obj D W E S) (e : E),
    evalDeps g before env = (.ok rs, before', env1) → evalN g d env1 = (.thrown e, d', env2) →
    evalDeps g (before ++ d :: later) env = (.thrown e, before' ++ d' :: later, env2) := by
  induction before with
  | nil =>
    intro env rs before' env1 env2 d' e hb hd
    simp only [evalDeps, Prod.mk.injEq] at hb
    obtain ⟨-, rfl, rfl⟩ := hb
    simp [evalDeps, hd, Out.map]
  | cons b before ih =>
    intro env rs before' env1 env2 d' e hb hd
    rcases h : evalN g b env with ⟨q, b', env0⟩
    rcases q with r | e' | _ | _
    · rcases h2 : evalDeps g before env0 with ⟨q2, bs', env0'⟩
      simp only [evalDeps, h, h2, Prod.mk.injEq] at hb
      obtain ⟨h3, rfl, rfl⟩ := hb
      rcases q2 with rs2 | _ | _ | _
      · have := ih env0 rs2 bs' env0' env2 d' e h2 hd
        simp [evalDeps, h, this, Out.map]
      all_goals simp [Out.map] at h3
    all_goals simp [evalDeps, h, Out.map] at hb

theorem evalDeps_length (g : Glue) (ds : List (Obj D W E S)) : ∀ (env : Env D W S)
    (rs : List (LazyRes D)), (evalDeps g ds env).1 = .ok rs → rs.length = ds.length := by
  induction ds with
  | nil =>
    intro env rs h
    simp only [evalDeps, Out.ok.injEq] at h
    rw [← h]; rfl
  | cons d ds ih =>
    intro env rs h
    rcases h1 : evalN g d env with ⟨q, d', env1⟩
    rcases q with r | _ | _ | _
    · rcases h2 : (evalDeps g ds env1).1 with rs2 | _ | _ | _
      · have := ih env1 rs2 h2
        simp only [evalDeps, h1, h2, Out.map, Out.ok.injEq] at h
        rw [← h]
        simp [this]
      all_goals simp [evalDeps, h1, h2, Out.map] at h
    all_goals simp [evalDeps, h1, Out.map] at h

end Pigro
