import Verif.Proofs.ThreadsExec
/-!
# When a call writes
-/
namespace Pigro.Thr
variable {D W E S α β ι : Type}

/-- Alone, some step writes. -/
def Prog.Wrote (m : Mem D) (env : Env D W S) : Prog D W E S α → Prop
  | .ret _ => False
  | .rd l k => (k (m l)).Wrote m env
  | .wr _ _ _ => True
  | .call kind u args k => (k (u.invoke kind args env).1).Wrote m (u.invoke kind args env).2.2
  | .cmp a b k => k.Wrote m ⟨env.w, env.log ++ [.cmp a b]⟩

theorem writes_first (m : Mem D) (env : Env D W S) (P : Prog D W E S α) :
    Writes m env P ↔ (∃ l, P.writes l) ∨ Writes (advance (m, env, P)).1 (advance (m, env, P)).2.1 (advance (m, env, P)).2.2 := by
  constructor
  · rintro ⟨n, l, h⟩
    cases n with
    | zero => exact Or.inl ⟨l, h⟩
    | succ n => rw [alone_first] at h; exact Or.inr ⟨n, l, h⟩
  · rintro (⟨l, h⟩ | ⟨n, l, h⟩)
    · exact ⟨0, l, h⟩
    · exact ⟨n + 1, l, by rw [alone_first]; exact h⟩

theorem writes_iff (m : Mem D) (env : Env D W S) (P : Prog D W E S α) : Writes m env P ↔ P.Wrote m env := by
  induction P generalizing m env with
  | ret a =>
    refine ⟨?_, False.elim⟩
    rintro ⟨n, l, h⟩
    rw [show n = 0 + n by omega, alone_stays (n := 0) (a := a) rfl n] at h
    exact h
  | rd l k ih => rw [writes_first]; exact ⟨fun h => (ih _ _ _).1 (h.resolve_left fun ⟨_, h⟩ => h), fun h => Or.inr ((ih _ _ _).2 h)⟩
  | wr l c k ih => exact ⟨fun _ => trivial, fun _ => ⟨0, l, rfl⟩⟩
  | call kind u args k ih => rw [writes_first]; exact ⟨fun h => (ih _ _ _).1 (h.resolve_left fun ⟨_, h⟩ => h), fun h => Or.inr ((ih _ _ _).2 h)⟩
  | cmp a b k ih => rw [writes_first]; exact ⟨fun h => (ih _ _).1 (h.resolve_left fun ⟨_, h⟩ => h), fun h => Or.inr ((ih _ _).2 h)⟩

theorem wrote_bind (P : Prog D W E S α) (f : α → Prog D W E S β) (m : Mem D) (env : Env D W S) :
    (P.bind f).Wrote m env ↔ P.Wrote m env ∨ (f (P.run m env).1).Wrote (P.run m env).2.1 (P.run m env).2.2 := by
  induction P generalizing m env with
  | ret a => exact ⟨Or.inr, fun h => h.resolve_left id⟩
  | rd l k ih => exact ih _ _ _
  | wr l c k ih => exact ⟨fun _ => Or.inl trivial, fun _ => trivial⟩
  | call kind u args k ih => exact ih _ _ _
  | cmp a b k ih => exact ih _ _

theorem idle_wrote {m : Mem D} {P : Prog D W E S α} (h : P.Idle m) (env : Env D W S) : ¬ P.Wrote m env := by
  induction P with
  | ret a => exact id
  | rd l k ih => exact ih _ h
  | _ => exact h.elim

theorem readRef_idle (r : Ref D) (m : Mem D) : (readRef r : Prog D W E S _).Idle m := by
  unfold readRef
  rcases r.src with v | l <;> trivial

theorem readRefs_idle (rs : List (Ref D)) (m : Mem D) (env : Env D W S) : (readRefs rs : Prog D W E S _).Idle m := by
  induction rs with
  | nil => trivial
  | cons r rs ih => exact idle_bind (readRef_idle r m) env (idle_bind ih env trivial)

theorem finish_idle (g : Glue) (p : Loc) (ch : Bool) (m : Mem D) : (finish g p ch : Prog D W E S _).Idle m := by
  simp only [finish, Prog.Idle]
  rcases (m p).deref <;> trivial

theorem callFun_wrote (f : Fun D W E S) (args : List (Val D)) (m : Mem D) (env : Env D W S) : ¬ (callFun f args).Wrote m env := by
  rcases f with u | u
  · simp only [callFun, Prog.Wrote]
    rcases (u.invoke .fn args env).1 with e | v <;> exact id
  · simp only [callFun, Prog.Wrote]
    rcases (u.invoke .dep [] env).1 with e | v <;> exact id

theorem callFun_log (f : Fun D W E S) (args : List (Val D)) (m : Mem D) (env : Env D W S) : ((callFun f args).run m env).2.2.log.length = env.log.length + 1 := by
  rcases f with u | u
  · simp only [callFun, Prog.run, UFn.invoke]
    rcases (u.run u.st args env.w).1 with e | v <;> simp [Prog.run]
  · simp only [callFun, Prog.run, UFn.invoke]
    rcases (u.run u.st [] env.w).1 with e | v <;> simp [Prog.run]

theorem log_mono (P : Prog D W E S α) (m : Mem D) (env : Env D W S) : env.log.length ≤ (P.run m env).2.2.log.length := by
  induction P generalizing m env with
  | ret a => exact Nat.le_refl _
  | rd l k ih => exact ih _ _ _
  | wr l c k ih => exact ih _ _
  | call kind u args k ih =>
    refine Nat.le_trans ?_ (ih _ _ _)
    simp [UFn.invoke]
  | cmp a b k ih =>
    refine Nat.le_trans ?_ (ih _ _)
    simp

/-- What is written was calculated; and if all goes well, what is calculated is written. -/
def Work (P : Prog D W E S (Out E α)) (m : Mem D) (env : Env D W S) : Prop :=
  (P.Wrote m env → env.log.length < (P.run m env).2.2.log.length) ∧ ((P.run m env).1.isOk = true → env.log.length < (P.run m env).2.2.log.length → P.Wrote m env)

theorem compare_wrote (c : Cache D) (r : Val D) (k : Prog D W E S α) (m : Mem D) (env : Env D W S) :
    (compare c r k).Wrote m env ↔ k.Wrote m ⟨env.w, env.log ++ cmpEvents c r⟩ := by
  rcases c with (_ | v) | o <;> simp [compare, cmpEvents, Prog.Wrote]

theorem coreTail_work [CxxData D] (g : Glue) (p : Loc) (f : Fun D W E S) (rs : List (Ref D)) (m : Mem D) (env : Env D W S) : Work (coreTail g p f rs) m env := by
  have hidle : ∀ {P : Prog D W E S (Out E (Ref D))}, P.Idle m → Work P m env := by
    intro P h
    refine ⟨fun hw => absurd hw (idle_wrote h env), fun _ hl => ?_⟩
    rw [idle_run h] at hl
    exact absurd hl (Nat.lt_irrefl _)
  unfold Work
  simp only [coreTail, Prog.run, Prog.Wrote]
  split
  · split
    · rw [wrote_bind, wrote_bind, run_bind, run_bind]
      rw [idle_run (readRefs_idle rs m env) env]
      have hl := callFun_log f (transform Val.asTuple id ((readRefs rs : Prog D W E S _).run m env).1) m env
      generalize (callFun f (transform Val.asTuple id ((readRefs rs : Prog D W E S _).run m env).1)).run m env = x at hl ⊢
      obtain ⟨o, m1, env1⟩ := x
      simp only at hl ⊢
      refine ⟨fun _ => ?_, fun hok _ => ?_⟩
      · have := log_mono (match o with
          | .ok result => .rd p fun c1 => compare c1 result (.rd p fun c2 => .wr p (c2.assign result) (finish g p (c1.ne result)))
          | o => .ret (o.map fun _ => ⟨.inl .rvoid, false, false⟩) : Prog D W E S (Out E (Ref D))) m1 env1
        rcases o with r | e | _ | _ <;> exact Nat.lt_of_lt_of_le (by omega) this
      · rcases o with r | e | _ | _
        · refine Or.inr (Or.inr ?_)
          simp only [Prog.Wrote, compare_wrote]
        all_goals cases hok
    · exact hidle (P := .ret .ub) trivial
  · exact hidle (finish_idle g p false m)

mutual
theorem evalR_work [CxxData D] (g : Glue) : ∀ (o : Obj D W E S) (p : Loc) (m : Mem D) (env : Env D W S), Work (evalR g p o) m env
  | .lazyValue _ _, _, _, env => ⟨False.elim, fun _ h => absurd h (Nat.lt_irrefl _)⟩
  | .core f c deps, p, m, env => by
    obtain ⟨h1, h2⟩ := depsR_work g deps p 0 m env
    unfold Work
    rw [evalR, wrote_bind, run_bind]
    have hm := log_mono (depsR g p 0 deps) m env
    generalize (depsR g p 0 deps).run m env = x at h1 h2 hm ⊢
    obtain ⟨o, m1, env1⟩ := x
    simp only at h1 h2 hm ⊢
    rcases o with rs | e | _ | _
    · obtain ⟨k1, k2⟩ := coreTail_work g p f rs m1 env1
      have hm' := log_mono (coreTail g p f rs) m1 env1
      refine ⟨?_, fun hok hl => ?_⟩
      · rintro (h | h)
        · exact Nat.lt_of_lt_of_le (h1 h) hm'
        · exact Nat.lt_of_le_of_lt hm (k1 h)
      · by_cases hh : env.log.length < env1.log.length
        · exact Or.inl (h2 rfl hh)
        · exact Or.inr (k2 hok (Nat.lt_of_le_of_lt (by omega) hl))
    all_goals exact ⟨fun h => h1 (h.resolve_right id), fun h => by cases h⟩
  | .unwrapped inner, p, m, env => by rw [evalR]; exact evalR_work g inner p m env
  | .unregularized inner, p, m, env => by rw [evalR]; exact evalR_work g inner p m env
theorem depsR_work [CxxData D] (g : Glue) : ∀ (ds : List (Obj D W E S)) (p : Loc) (i : Nat) (m : Mem D) (env : Env D W S), Work (depsR g p i ds) m env
  | [], _, _, _, env => ⟨False.elim, fun _ h => absurd h (Nat.lt_irrefl _)⟩
  | d :: ds, p, i, m, env => by
    obtain ⟨h1, h2⟩ := evalR_work g d (i :: p) m env
    unfold Work
    rw [depsR, wrote_bind, run_bind]
    have hm := log_mono (evalR g (i :: p) d) m env
    generalize (evalR g (i :: p) d).run m env = x at h1 h2 hm ⊢
    obtain ⟨o, m1, env1⟩ := x
    simp only at h1 h2 hm ⊢
    rcases o with r | e | _ | _
    · obtain ⟨k1, k2⟩ := depsR_work g ds p (i + 1) m1 env1
      have hm' := log_mono (depsR g p (i + 1) ds) m1 env1
      simp only [wrote_bind, run_bind]
      generalize (depsR g p (i + 1) ds).run m1 env1 = y at k1 k2 hm' ⊢
      obtain ⟨o', m2, env2⟩ := y
      simp only [Prog.run, Prog.Wrote, or_false] at k1 k2 hm' ⊢
      refine ⟨?_, fun hok hl => ?_⟩
      · rintro (h | h)
        · exact Nat.lt_of_lt_of_le (h1 h) hm'
        · exact Nat.lt_of_le_of_lt hm (k1 h)
      · have hok' : o'.isOk = true := by rcases o' with _ | _ | _ | _ <;> first | rfl | exact hok
        by_cases hh : env.log.length < env1.log.length
        · exact Or.inl (h2 rfl hh)
        · exact Or.inr (k2 hok' (by omega))
    all_goals exact ⟨fun h => h1 (h.resolve_right id), fun h => by cases h⟩
end

theorem callR_work [CxxData D] (g : Glue) : ∀ (o : Obj D W E S) (p : Loc) (m : Mem D) (env : Env D W S), Work (callR g p o) m env
  | .lazyValue _ _, _, _, env => ⟨False.elim, fun _ h => absurd h (Nat.lt_irrefl _)⟩
  | .core _ _ _, _, _, env => ⟨False.elim, fun _ h => absurd h (Nat.lt_irrefl _)⟩
  | .unwrapped inner, p, m, env => by
    obtain ⟨h1, h2⟩ := evalR_work g inner p m env
    unfold Work
    rw [callR, wrote_bind, run_bind]
    generalize (evalR g p inner).run m env = x at h1 h2 ⊢
    obtain ⟨o, m1, env1⟩ := x
    simp only at h1 h2 ⊢
    rcases o with r | e | _ | _
    · cases hl : r.live with
      | true =>
        simp only [hl, if_true, wrote_bind, run_bind, readRef_run, Prog.run, Prog.Wrote, or_false]
        exact ⟨fun h => h1 (h.resolve_right (idle_wrote (readRef_idle r m1) env1)), fun _ h => Or.inl (h2 rfl h)⟩
      | false =>
        simp only [hl, Bool.false_eq_true, if_false]
        exact ⟨fun h => h1 (h.resolve_right id), fun h => by cases h⟩
    all_goals exact ⟨fun h => h1 (h.resolve_right id), fun h => by cases h⟩
  | .unregularized inner, p, m, env => by
    obtain ⟨h1, h2⟩ := callR_work g inner p m env
    unfold Work
    rw [callR, wrote_bind, run_bind]
    generalize (callR g p inner).run m env = x at h1 h2 ⊢
    obtain ⟨o, m1, env1⟩ := x
    simp only [Prog.run, Prog.Wrote, or_false] at h1 h2 ⊢
    refine ⟨h1, fun hok => h2 ?_⟩
    rcases o with _ | _ | _ | _ <;> first | rfl | exact hok

/-- Results are in the order of the dependencies. -/
theorem depsR_polls [CxxData D] (g : Glue) (v : Val D) : ∀ (ds : List (Obj D W E S)) (p : Loc) (i : Nat) (m : Mem D) (env : Env D W S), .lazyValue v true ∈ ds →
    ∀ rs, ((depsR g p i ds).run m env).1 = .ok rs → any Ref.isChanged rs = true
  | d :: ds, p, i, m, env, h => by
    intro rs hrs
    rw [depsR, run_bind] at hrs
    rcases List.mem_cons.1 h with rfl | h
    · simp only [evalR, Prog.run, run_bind] at hrs
      generalize ((depsR g p (i + 1) ds).run m env).1 = o at hrs
      rcases o with rs' | e | _ | _
      · injection hrs with hrs
        subst hrs
        rfl
      all_goals cases hrs
    · generalize (evalR g (i :: p) d).run m env = x at hrs
      obtain ⟨o, m1, env1⟩ := x
      rcases o with r | e | _ | _
      · simp only [run_bind, Prog.run] at hrs
        have ih := depsR_polls g v ds p (i + 1) m1 env1 h
        generalize ((depsR g p (i + 1) ds).run m1 env1).1 = o at hrs ih
        rcases o with rs' | e | _ | _
        · injection hrs with hrs
          subst hrs
          have := ih rs' rfl
          unfold any at this ⊢
          simp only [anyS]
          cases r.isChanged with
          | true => rfl
          | false => exact this
        all_goals cases hrs
      all_goals cases hrs

theorem coreTail_changed [CxxData D] (g : Glue) (p : Loc) (f : Fun D W E S) (rs : List (Ref D)) (m : Mem D) (env : Env D W S) (h : any Ref.isChanged rs = true)
    (hok : ((coreTail g p f rs).run m env).1.isOk = true) : (coreTail g p f rs).Wrote m env := by
  simp only [coreTail, Prog.run, Prog.Wrote, h, Bool.or_true, if_true] at hok ⊢
  split
  · rename_i hl
    rw [wrote_bind, wrote_bind]
    refine Or.inr (Or.inr ?_)
    simp only [hl, if_true, run_bind] at hok
    generalize (callFun f (transform Val.asTuple id ((readRefs rs : Prog D W E S _).run m env).1)).run _ _ = x at hok ⊢
    obtain ⟨o, m1, env1⟩ := x
    rcases o with r | e | _ | _
    · simp only [Prog.Wrote, compare_wrote]
    all_goals cases hok
  · rename_i hl
    simp only [hl] at hok
    cases hok

mutual
theorem evalR_polls [CxxData D] (g : Glue) : ∀ (o : Obj D W E S) (p : Loc) (m : Mem D) (env : Env D W S), Polls o → ((evalR g p o).run m env).1.isOk = true → (evalR g p o).Wrote m env
  | .lazyValue _ _, _, _, _, h, _ => by rw [Polls] at h; exact h.elim
  | .core f c deps, p, m, env, h, hok => by
    rw [evalR, wrote_bind]
    rw [evalR, run_bind] at hok
    rw [Polls] at h
    have hd := fun v hv => depsR_polls g v deps p 0 m env hv
    have hd' := depsR_polls' g deps p 0 m env
    generalize (depsR g p 0 deps).run m env = x at hok hd hd' ⊢
    obtain ⟨o, m1, env1⟩ := x
    rcases o with rs | e | _ | _
    · rcases h with ⟨v, hv⟩ | ⟨d, hm, hp⟩
      · exact Or.inr (coreTail_changed g p f rs m1 env1 (hd v hv rs rfl) hok)
      · exact Or.inl (hd' d hm hp rfl)
    all_goals cases hok
  | .unwrapped inner, p, m, env, h, hok => by rw [Polls] at h; rw [evalR] at hok ⊢; exact evalR_polls g inner p m env h hok
  | .unregularized inner, p, m, env, h, hok => by rw [Polls] at h; rw [evalR] at hok ⊢; exact evalR_polls g inner p m env h hok
theorem depsR_polls' [CxxData D] (g : Glue) : ∀ (ds : List (Obj D W E S)) (p : Loc) (i : Nat) (m : Mem D) (env : Env D W S), ∀ d ∈ ds, Polls d → ((depsR g p i ds).run m env).1.isOk = true →
    (depsR g p i ds).Wrote m env
  | d :: ds, p, i, m, env, d', hm, hp, hok => by
    rw [depsR, wrote_bind]
    rw [depsR, run_bind] at hok
    have hd := evalR_polls g d (i :: p) m env
    generalize (evalR g (i :: p) d).run m env = x at hok hd ⊢
    obtain ⟨o, m1, env1⟩ := x
    rcases o with r | e | _ | _
    · rcases List.mem_cons.1 hm with rfl | hm
      · exact Or.inl (hd hp rfl)
      · refine Or.inr ?_
        simp only [wrote_bind]
        refine Or.inl (depsR_polls' g ds p (i + 1) m1 env1 d' hm hp ?_)
        simp only [run_bind, Prog.run] at hok
        generalize ((depsR g p (i + 1) ds).run m1 env1).1 = o at hok ⊢
        rcases o with _ | _ | _ | _ <;> first | rfl | exact hok
    all_goals cases hok
end

theorem callR_polls [CxxData D] (g : Glue) : ∀ (o : Obj D W E S) (p : Loc) (m : Mem D) (env : Env D W S), Polls o → ((callR g p o).run m env).1.isOk = true → (callR g p o).Wrote m env
  | .lazyValue _ _, _, _, _, h, _ => by rw [Polls] at h; exact h.elim
  | .core _ _ _, _, _, _, _, hok => by cases hok
  | .unwrapped inner, p, m, env, h, hok => by
    rw [Polls] at h
    rw [callR, wrote_bind]
    rw [callR, run_bind] at hok
    refine Or.inl (evalR_polls g inner p m env h ?_)
    generalize (evalR g p inner).run m env = x at hok ⊢
    obtain ⟨o, m1, env1⟩ := x
    rcases o with _ | _ | _ | _ <;> first | rfl | exact hok
  | .unregularized inner, p, m, env, h, hok => by
    rw [Polls] at h
    rw [callR, wrote_bind]
    rw [callR, run_bind] at hok
    refine Or.inl (callR_polls g inner p m env h ?_)
    generalize (callR g p inner).run m env = x at hok ⊢
    obtain ⟨o, m1, env1⟩ := x
    rcases o with _ | _ | _ | _ <;> first | rfl | exact hok

mutual
theorem evalR_settled [CxxData D] {g : Glue} (hg : g.Retains) : ∀ (o : Obj D W E S) (p : Loc) (m : Mem D) (env : Env D W S), Settled (load m p o) → (evalR g p o).Idle m ∧
    ∃ r, ((evalR g p o).run m env).1 = .ok r ∧ r.isChanged = false ∧ evalN g (load m p o) env = (.ok (resolve m r), load m p o, env)
  | .lazyValue v c, p, m, env, h => by
    rw [load, Settled] at h
    subst h
    exact ⟨trivial, _, rfl, rfl, rfl⟩
  | .core f c deps, p, m, env, h => by
    rw [load, Settled] at h
    have hd := depsR_settled hg deps p 0 m env h.2
    have htail : ∀ (rs : List (Ref D)) (env : Env D W S), any Ref.isChanged rs = false → (coreTail g p f rs).Idle m ∧
        ∃ r, ((coreTail g p f rs).run m env).1 = .ok r ∧ r.isChanged = false ∧ Pigro.coreTail g f (m p) (rs.map (resolve m)) env = (.ok (resolve m r), f, m p, env) := by
      intro rs env hrs
      simp only [coreTail, Prog.Idle, Prog.run, Pigro.coreTail, any_resolve, hrs, h.1, Bool.not_true, Bool.or_false, Bool.false_eq_true, if_false]
      refine ⟨finish_idle g p false m, ?_⟩
      rw [finish_run]
      have hdr : ∃ v, (m p).deref = some v := by
        have := h.1
        generalize m p = c at this ⊢
        rcases c with (_ | v) | o
        · cases this
        · exact ⟨v, rfl⟩
        · exact ⟨_, rfl⟩
      obtain ⟨v, hv⟩ := hdr
      simp only [hv]
      exact ⟨_, rfl, rfl, by rw [resolve_finish _ _ _ _ _ _ hv]⟩
    obtain ⟨rs, h1, h2, h3⟩ := hd.2
    refine ⟨?_, ?_⟩
    · rw [evalR]
      refine idle_bind hd.1 env ?_
      rw [h1]
      exact (htail rs env h2).1
    · obtain ⟨r, r1, r2, r3⟩ := (htail rs env h2).2
      refine ⟨r, ?_, r2, ?_⟩
      · rw [evalR, run_bind, idle_run hd.1, h1]
        exact r1
      · rw [load, evalN, h3]
        simp only
        rw [r3]
        simp [keep]
  | .unwrapped inner, p, m, env, h => by
    rw [load, Settled] at h
    obtain ⟨h1, h2⟩ := evalR_settled hg inner p m env h
    refine ⟨by rw [evalR]; exact h1, ?_⟩
    obtain ⟨r, r1, r2, r3⟩ := h2
    refine ⟨r, by rw [evalR]; exact r1, r2, ?_⟩
    rw [load, evalN, r3]
    simp only [hg.2.2.1, through_false]
    simp [keep]
  | .unregularized inner, p, m, env, h => by
    rw [load, Settled] at h
    obtain ⟨h1, h2⟩ := evalR_settled hg inner p m env h
    refine ⟨by rw [evalR]; exact h1, ?_⟩
    obtain ⟨r, r1, r2, r3⟩ := h2
    refine ⟨r, by rw [evalR]; exact r1, r2, ?_⟩
    rw [load, evalN, r3]
    simp only [hg.2.2.2, through_false]
    simp [keep]
theorem depsR_settled [CxxData D] {g : Glue} (hg : g.Retains) : ∀ (ds : List (Obj D W E S)) (p : Loc) (i : Nat) (m : Mem D) (env : Env D W S), (∀ d ∈ loadDeps m p i ds, Settled d) → (depsR g p i ds).Idle m ∧
    ∃ rs, ((depsR g p i ds).run m env).1 = .ok rs ∧ any Ref.isChanged rs = false ∧ evalDeps g (loadDeps m p i ds) env = (.ok (rs.map (resolve m)), loadDeps m p i ds, env)
  | [], _, _, _, _, _ => ⟨trivial, [], rfl, rfl, rfl⟩
  | d :: ds, p, i, m, env, h => by
    rw [loadDeps] at h
    obtain ⟨h1, h2⟩ := evalR_settled hg d (i :: p) m env (h _ List.mem_cons_self)
    obtain ⟨k1, k2⟩ := depsR_settled hg ds p (i + 1) m env fun d hd => h d (List.mem_cons_of_mem _ hd)
    obtain ⟨r, r1, r2, r3⟩ := h2
    obtain ⟨rs, s1, s2, s3⟩ := k2
    refine ⟨?_, ?_⟩
    · rw [depsR]
      refine idle_bind h1 env ?_
      rw [r1]
      exact idle_bind k1 env trivial
    · skip
      refine ⟨r :: rs, ?_, ?_, ?_⟩
      · rw [depsR, run_bind, idle_run h1, r1]
        simp only [run_bind]
        rw [idle_run k1, s1]
        rfl
      · unfold any at s2 ⊢
        simp only [anyS, r2]
        exact s2
      · rw [loadDeps, evalDeps, r3]
        simp only
        rw [s3]
        rfl
end

end Pigro.Thr
