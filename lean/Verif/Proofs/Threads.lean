import Verif.Spec.Threads
/-!
# A call alone is the call of `Model/Lazy.lean`
-/
namespace Pigro.Thr
variable {D W E S α β ι : Type}

theorem run_bind (P : Prog D W E S α) (f : α → Prog D W E S β) (m : Mem D) (env : Env D W S) :
    (P.bind f).run m env = (f (P.run m env).1).run (P.run m env).2.1 (P.run m env).2.2 := by
  induction P generalizing m env with
  | ret a => rfl
  | rd l k ih => exact ih _ _ _
  | wr l c k ih => exact ih _ _
  | call kind u args k ih => exact ih _ _ _
  | cmp a b k ih => exact ih _ _

theorem suffix_of_cons {i : Nat} {p q : Loc} (h : i :: p <:+ q) : p <:+ q := (List.suffix_cons i p).trans h

theorem not_suffix_cons (i : Nat) (p : Loc) : ¬ i :: p <:+ p := fun h => by have := h.length_le; simp at this; omega

theorem suffix_index {i j : Nat} {p q : Loc} (h : i :: p <:+ q) (h' : j :: p <:+ q) : i = j := by
  obtain ⟨a, rfl⟩ := h
  obtain ⟨b, hb⟩ := h'
  have hl : b.length = a.length := by have := congrArg List.length hb; simp at this; omega
  have := (List.append_inj hb hl).2
  simp at this
  exact this.symm

mutual
theorem load_congr {m m' : Mem D} : ∀ (o : Obj D W E S) (p : Loc), (∀ q, p <:+ q → m q = m' q) → load m p o = load m' p o
  | .lazyValue _ _, _, _ => rfl
  | .core f c deps, p, h => by
    rw [load, load, h p (List.suffix_refl p), loadDeps_congr deps p 0 fun j _ q hq => h q (suffix_of_cons hq)]
  | .unwrapped inner, p, h => by rw [load, load, load_congr inner p h]
  | .unregularized inner, p, h => by rw [load, load, load_congr inner p h]
theorem loadDeps_congr {m m' : Mem D} : ∀ (ds : List (Obj D W E S)) (p : Loc) (i : Nat), (∀ j, i ≤ j → ∀ q, j :: p <:+ q → m q = m' q) → loadDeps m p i ds = loadDeps m' p i ds
  | [], _, _, _ => rfl
  | d :: ds, p, i, h => by
    rw [loadDeps, loadDeps, load_congr d (i :: p) (h i (Nat.le_refl i)), loadDeps_congr ds p (i + 1) fun j hj => h j (by omega)]
end

/-- The result with its value. -/
def resolve (m : Mem D) (r : Ref D) : LazyRes D :=
  ⟨match r.src with
    | .inl v => v
    | .inr l => (m l).deref.getD .rvoid, r.isChanged, r.live⟩

theorem readRef_run (r : Ref D) (m : Mem D) (env : Env D W S) : (readRef r : Prog D W E S _).run m env = ((resolve m r).value, m, env) := by
  unfold readRef resolve
  rcases r.src with v | l <;> rfl

theorem readRefs_run (rs : List (Ref D)) (m : Mem D) (env : Env D W S) :
    (readRefs rs : Prog D W E S _).run m env = ((rs.map (resolve m)).map LazyRes.value, m, env) := by
  induction rs with
  | nil => rfl
  | cons r rs ih => simp only [readRefs, run_bind, readRef_run, ih]; rfl

theorem callFun_run (g : Glue) (f : Fun D W E S) (args : List (Val D)) (m : Mem D) (env : Env D W S) :
    (callFun f args).run m env = ((f.call g args env).1, m, (f.call g args env).2.2) := by
  rcases f with u | u
  · simp only [callFun, Prog.run, Fun.call]
    rcases h : u.invoke .fn args env with ⟨e | v, u', env'⟩ <;> rfl
  · simp only [callFun, Prog.run, Fun.call]
    rcases h : u.invoke .dep [] env with ⟨e | v, u', env'⟩ <;> rfl

theorem call_const (g : Glue) (f : Fun D W E S) (args : List (Val D)) (env : Env D W S) (h : Const (fnOf f)) : (f.call g args env).2.1 = f := by
  rcases f with u | u
  · have hu : (u.invoke .fn args env).2.1 = u := by
      rcases u with ⟨c, st⟩
      exact congrArg (UFn.mk c) (h args env.w)
    simp only [Fun.call]
    rcases hq : u.invoke .fn args env with ⟨e | v, u', env'⟩ <;> rw [hq] at hu <;> simp only at hu <;> simp [keep, hu]
  · have hu : (u.invoke .dep [] env).2.1 = u := by
      rcases u with ⟨c, st⟩
      exact congrArg (UFn.mk c) (h [] env.w)
    simp only [Fun.call]
    rcases hq : u.invoke .dep [] env with ⟨e | v, u', env'⟩ <;> rw [hq] at hu <;> simp only at hu <;> simp [keep, hu]

theorem compare_run (c : Cache D) (r : Val D) (k : Prog D W E S α) (m : Mem D) (env : Env D W S) :
    (compare c r k).run m env = k.run m ⟨env.w, env.log ++ cmpEvents c r⟩ := by
  rcases c with (_ | v) | o <;> simp [compare, cmpEvents, Prog.run]

theorem set_self (m : Mem D) (l : Loc) (c : Cache D) : m.set l c l = c := by simp [Mem.set]

theorem set_ne (m : Mem D) (l : Loc) (c : Cache D) {q : Loc} (h : q ≠ l) : m.set l c q = m q := by simp [Mem.set, h]

theorem set_set (m : Mem D) (l : Loc) (c c' : Cache D) : (m.set l c).set l c' = m.set l c' := by
  funext q; unfold Mem.set; split <;> rfl

theorem set_same (m : Mem D) (l : Loc) : m.set l (m l) = m := by
  funext q; unfold Mem.set; split <;> simp_all

theorem any_map {α β : Type} (p : β → Bool) (f : α → β) (l : List α) : any p (l.map f) = any (fun a => p (f a)) l := by
  unfold any
  induction l with
  | nil => rfl
  | cons a l ih =>
    simp only [List.map_cons, anyS]
    cases p (f a) with
    | true => rfl
    | false => exact ih

theorem any_resolve (m : Mem D) (rs : List (Ref D)) : any LazyRes.isChanged (rs.map (resolve m)) = any Ref.isChanged rs := any_map _ _ _

theorem transform_id (vs : List (LazyRes D)) : transform Val.asTuple id (vs.map LazyRes.value) = transform Val.asTuple LazyRes.value vs := by
  have : ∀ (β γ : Type) (f : β → γ) (l : List β), (mapState (fun a (_ : Unit) => (f a, ())) l ()).1 = l.map f := by
    intro β γ f l
    induction l with
    | nil => rfl
    | cons a l ih => simp only [mapState, List.map_cons, ih]
  unfold transform transformS
  simp only
  rw [this, this]
  simp

theorem readValues_resolve (m : Mem D) (rs : List (Ref D)) :
    readValues (rs.map (resolve m)) = if rs.all (·.live) then some (transform Val.asTuple id ((rs.map (resolve m)).map LazyRes.value)) else none := by
  unfold readValues
  rw [transform_id]
  have : (rs.map (resolve m)).all (·.live) = rs.all (·.live) := by simp [List.all_map]; rfl
  rw [this]

theorem coreLive_assign (g : Glue) (c : Cache D) (r : Val D) : g.coreLive (c.assign r) = g.coreLive c := by rcases c with o | o <;> rfl

theorem finish_run (g : Glue) (p : Loc) (ch : Bool) (m : Mem D) (env : Env D W S) :
    (finish g p ch : Prog D W E S _).run m env = (match (m p).deref with
      | some v => .ok ⟨if g.resultByRef then .inr p else .inl v, ch, g.coreLive (m p)⟩
      | none => .ub, m, env) := by
  simp only [finish, Prog.run]
  rcases (m p).deref <;> rfl

theorem resolve_finish (g : Glue) (p : Loc) (ch live : Bool) (m : Mem D) (v : Val D) (h : (m p).deref = some v) :
    resolve m ⟨if g.resultByRef then .inr p else .inl v, ch, live⟩ = ⟨v, ch, live⟩ := by
  unfold resolve
  cases g.resultByRef <;> simp [h]

theorem deref_assign (c : Cache D) (r : Val D) : ∃ v, (c.assign r).deref = some v := by rcases c with o | o <;> exact ⟨_, rfl⟩

theorem coreTail_run [CxxData D] (g : Glue) (p : Loc) (f : Fun D W E S) (rs : List (Ref D)) (m : Mem D) (env : Env D W S) :
    ((coreTail g p f rs).run m env).2.1 = m.set p (Pigro.coreTail g f (m p) (rs.map (resolve m)) env).2.2.1 ∧
      ((coreTail g p f rs).run m env).2.2 = (Pigro.coreTail g f (m p) (rs.map (resolve m)) env).2.2.2 ∧
      (Pigro.coreTail g f (m p) (rs.map (resolve m)) env).1 = ((coreTail g p f rs).run m env).1.map (resolve ((coreTail g p f rs).run m env).2.1) ∧
      ∀ r, ((coreTail g p f rs).run m env).1 = .ok r → ∀ l, r.src = .inr l → l = p := by
  have hfin : ∀ (ch : Bool) (m : Mem D) (env : Env D W S) (r : Ref D), ((finish g p ch : Prog D W E S _).run m env).1 = .ok r → ∀ l, r.src = .inr l → l = p := by
    intro ch m env r h l hl
    rw [finish_run] at h
    rcases hd : (m p).deref with _ | v
    · simp [hd] at h
    · simp only [hd] at h
      injection h with h
      rw [← h] at hl
      simp only at hl
      split at hl
      · injection hl with hl; exact hl.symm
      · cases hl
  simp only [coreTail, Prog.run, Pigro.coreTail, any_resolve]
  cases hc : !(m p).engaged || any Ref.isChanged rs with
  | false =>
    simp only [Bool.false_eq_true, if_false]
    refine ⟨?_, ?_, ?_, hfin _ _ _⟩
    · rw [finish_run]
      rcases hd : (m p).deref with _ | v <;> simp [set_same]
    · rw [finish_run]
      rcases hd : (m p).deref with _ | v <;> rfl
    · rw [finish_run]
      rcases hd : (m p).deref with _ | v
      · rfl
      · simp only [Out.map, resolve_finish _ _ _ _ _ _ hd]
  | true =>
    simp only [if_true, readValues_resolve]
    cases hl : rs.all (·.live) with
    | false => simp [Prog.run, set_same, Out.map]
    | true =>
      simp only [if_true, run_bind, readRefs_run, callFun_run g]
      rcases hf : f.call g (transform Val.asTuple id ((rs.map (resolve m)).map LazyRes.value)) env with ⟨o, f', env'⟩
      rcases o with result | e | _ | _
      · simp only [Prog.run, compare_run]
        obtain ⟨v, hv⟩ := deref_assign (m p) result
        simp only [hv]
        refine ⟨?_, ?_, ?_, hfin _ _ _⟩
        · rw [finish_run]
        · rw [finish_run]
        · rw [finish_run]
          have hv' : ((m.set p ((m p).assign result)) p).deref = some v := by rw [set_self]; exact hv
          simp only [hv', Out.map, resolve_finish _ _ _ _ _ _ hv']
          rw [set_self, coreLive_assign]
      all_goals simp [Prog.run, set_same, Out.map]
      all_goals rfl

/-- What holds of a call of an object at `p` alone. -/
def EvalOk [CxxData D] (g : Glue) (p : Loc) (o : Obj D W E S) (m : Mem D) (env : Env D W S) (x : Out E (Ref D) × Mem D × Env D W S) : Prop :=
  evalN g (load m p o) env = (x.1.map (resolve x.2.1), load x.2.1 p o, x.2.2) ∧ (∀ q, ¬ p <:+ q → x.2.1 q = m q) ∧
    ∀ r, x.1 = .ok r → ∀ l, r.src = .inr l → p <:+ l

/-- What holds of the evaluation of dependencies alone. -/
def DepsOk [CxxData D] (g : Glue) (p : Loc) (i : Nat) (ds : List (Obj D W E S)) (m : Mem D) (env : Env D W S) (x : Out E (List (Ref D)) × Mem D × Env D W S) : Prop :=
  evalDeps g (loadDeps m p i ds) env = (x.1.map (List.map (resolve x.2.1)), loadDeps x.2.1 p i ds, x.2.2) ∧ (∀ q, (∀ j, i ≤ j → ¬ j :: p <:+ q) → x.2.1 q = m q) ∧
    ∀ rs, x.1 = .ok rs → ∀ r ∈ rs, ∀ l, r.src = .inr l → ∃ j, i ≤ j ∧ j :: p <:+ l

theorem resolve_congr {m m' : Mem D} (r : Ref D) (h : ∀ l, r.src = .inr l → m l = m' l) : resolve m r = resolve m' r := by
  unfold resolve
  rcases hr : r.src with v | l
  · rfl
  · simp only [h l hr]

theorem through_false (o : Out E (LazyRes D)) (b : Bool) : o.map (LazyRes.through (b && false)) = o := by
  have : ∀ r : LazyRes D, LazyRes.through false r = r := by intro r; simp [LazyRes.through]
  rcases o with r | e | _ | _ <;> simp [Out.map, this]

mutual
theorem evalR_run [CxxData D] {g : Glue} (hg : g.Retains) : ∀ (o : Obj D W E S) (p : Loc) (m : Mem D) (env : Env D W S), (∀ u ∈ fns o, Const u) →
    EvalOk g p o m env ((evalR g p o).run m env)
  | .lazyValue v c, p, m, env, _ => by
    refine ⟨rfl, fun _ _ => rfl, ?_⟩
    intro r hr l hl
    injection hr with hr
    rw [← hr] at hl
    cases hl
  | .core f c deps, p, m, env, h => by
    have hb := hg.1
    have hp := hg.2.1
    have hd := depsR_run hg deps p 0 m env fun u hu => h u (by rw [fns]; exact List.mem_cons_of_mem _ (by simpa using hu))
    have hf : Const (fnOf f) := h _ (by rw [fns]; exact List.mem_cons_self)
    unfold EvalOk
    rw [evalR, run_bind, load, evalN]
    generalize (depsR g p 0 deps).run m env = x at hd ⊢
    obtain ⟨o, m1, env1⟩ := x
    obtain ⟨h1, h2, h3⟩ := hd
    simp only at h1 h2 h3 ⊢
    have hmp : m1 p = m p := h2 p fun j _ => not_suffix_cons j p
    rw [h1]
    rcases o with rs | e | _ | _
    · simp only [Out.map]
      obtain ⟨t1, t2, t3, t4⟩ := coreTail_run g p f rs m1 env1
      rw [hmp] at t1 t2 t3
      have tf : (Pigro.coreTail g f (m p) (rs.map (resolve m1)) env1).2.1 = f := by
        simp only [Pigro.coreTail]
        split
        · split
          · rfl
          · split
            · split
              · rename_i hq _ _ _
                have := congrArg (fun y => y.2.1) hq
                simp only at this
                rw [← this]; exact call_const _ _ _ _ hf
              · rename_i hq _ _
                have := congrArg (fun y => y.2.1) hq
                simp only at this
                rw [← this]; exact call_const _ _ _ _ hf
            · rename_i hq
              have := congrArg (fun y => y.2.1) hq
              simp only at this
              rw [← this]; exact call_const _ _ _ _ hf
        · split <;> rfl
      generalize (coreTail g p f rs).run m1 env1 = y at t1 t2 t3 t4 ⊢
      generalize Pigro.coreTail g f (m p) (rs.map (resolve m1)) env1 = z at t1 t2 t3 tf ⊢
      obtain ⟨z1, z2, z3, z4⟩ := z
      obtain ⟨y1, y2, y3⟩ := y
      simp only at t1 t2 t3 t4 tf ⊢
      subst t1 t2 tf
      refine ⟨?_, ?_, fun r hr l hl => by rw [t4 r hr l hl]; exact List.suffix_refl p⟩
      · rw [t3, load, set_self]
        simp only [keep, hb, hp, Bool.false_eq_true, if_false]
        have hcong : loadDeps m1 p 0 deps = loadDeps (m1.set p z3) p 0 deps := loadDeps_congr deps p 0 fun j _ q hq =>
          (set_ne _ _ _ fun hqp => by rw [hqp] at hq; exact not_suffix_cons j p hq).symm
        rw [hcong]
        rfl
      · intro q hq
        rw [set_ne _ _ _ (fun hqp => by rw [hqp] at hq; exact hq (List.suffix_refl p))]
        exact h2 q fun j _ hj => hq (suffix_of_cons hj)
    all_goals
      simp only [Out.map, Prog.run]
      refine ⟨?_, fun q hq => h2 q fun j _ hj => hq (suffix_of_cons hj), fun r hr => by cases hr⟩
      rw [load, hmp]
      simp [keep, hp]
  | .unwrapped inner, p, m, env, h => by
    obtain ⟨h1, h2, h3⟩ := evalR_run hg inner p m env fun u hu => h u (by rw [fns]; exact hu)
    refine ⟨?_, h2, h3⟩
    rw [load, evalN, h1, evalR]
    simp only [hg.2.2.1, through_false, keep, Bool.false_eq_true, if_false]
    rw [load]
  | .unregularized inner, p, m, env, h => by
    obtain ⟨h1, h2, h3⟩ := evalR_run hg inner p m env fun u hu => h u (by rw [fns]; exact hu)
    refine ⟨?_, h2, h3⟩
    rw [load, evalN, h1, evalR]
    simp only [hg.2.2.2, through_false, keep, Bool.false_eq_true, if_false]
    rw [load]
theorem depsR_run [CxxData D] {g : Glue} (hg : g.Retains) : ∀ (ds : List (Obj D W E S)) (p : Loc) (i : Nat) (m : Mem D) (env : Env D W S), (∀ u ∈ (ds.map fns).flatten, Const u) →
    DepsOk g p i ds m env ((depsR g p i ds).run m env)
  | [], p, i, m, env, _ => by
    refine ⟨rfl, fun _ _ => rfl, ?_⟩
    intro rs hrs r hr
    injection hrs with hrs
    rw [← hrs] at hr
    cases hr
  | d :: ds, p, i, m, env, h => by
    have hd := evalR_run hg d (i :: p) m env fun u hu => h u (by simp [hu])
    unfold DepsOk
    rw [depsR, run_bind, loadDeps, evalDeps]
    generalize (evalR g (i :: p) d).run m env = x at hd ⊢
    obtain ⟨o, m1, env1⟩ := x
    obtain ⟨h1, h2, h3⟩ := hd
    simp only at h1 h2 h3 ⊢
    have hds : loadDeps m1 p (i + 1) ds = loadDeps m p (i + 1) ds :=
      loadDeps_congr ds p (i + 1) fun j hj q hq => h2 q fun hi => by have := suffix_index hi hq; omega
    rw [h1]
    rcases o with r | e | _ | _
    · have hs := depsR_run hg ds p (i + 1) m1 env1 fun u hu => h u (by simp only [List.map_cons, List.flatten_cons, List.mem_append]; exact Or.inr hu)
      simp only [Out.map, run_bind]
      generalize (depsR g p (i + 1) ds).run m1 env1 = y at hs ⊢
      obtain ⟨o', m2, env2⟩ := y
      obtain ⟨k1, k2, k3⟩ := hs
      simp only at k1 k2 k3 ⊢
      rw [← hds, k1]
      have hm : ∀ q, i :: p <:+ q → m2 q = m1 q := fun q hq => k2 q fun j hj hj' => by have := suffix_index hq hj'; omega
      have hr : resolve m1 r = resolve m2 r := resolve_congr r fun l hl => (hm l (h3 r rfl l hl)).symm
      refine ⟨?_, ?_, ?_⟩
      · simp only [Prog.run]
        rw [loadDeps, load_congr d (i :: p) fun q hq => (hm q hq).symm, hr]
        rcases o' with rs | e | _ | _ <;> rfl
      · intro q hq
        simp only [Prog.run]
        rw [k2 q fun j hj => hq j (by omega), h2 q (hq i (Nat.le_refl i))]
      · intro rs hrs r' hr' l hl
        simp only [Prog.run] at hrs
        rcases o' with rs' | e | _ | _
        · injection hrs with hrs
          subst hrs
          rcases List.mem_cons.1 hr' with rfl | hr'
          · exact ⟨i, Nat.le_refl i, h3 _ rfl l hl⟩
          · obtain ⟨j, hj, hj'⟩ := k3 rs' rfl r' hr' l hl
            exact ⟨j, by omega, hj'⟩
        all_goals cases hrs
    all_goals
      simp only [Out.map, Prog.run]
      refine ⟨?_, fun q hq => h2 q (hq i (Nat.le_refl i)), fun rs hrs => by cases hrs⟩
      rw [loadDeps, hds]
end

/-- The object at `p` returns what an object of the type of `o` does (`regular_void` or not). -/
def SameRV (m : Mem D) (p : Loc) (o : Obj D W E S) : Prop := (load m p o).valueIsRV = o.valueIsRV

theorem callR_run [CxxData D] {g : Glue} (hg : g.Retains) : ∀ (o : Obj D W E S) (p : Loc) (m : Mem D) (env : Env D W S), (∀ u ∈ fns o, Const u) → SameRV m p o →
    call0 g (load m p o) env = (((callR g p o).run m env).1, load ((callR g p o).run m env).2.1 p o, ((callR g p o).run m env).2.2) ∧
      ∀ q, ¬ p <:+ q → ((callR g p o).run m env).2.1 q = m q
  | .lazyValue v c, p, m, env, _, _ => ⟨rfl, fun _ _ => rfl⟩
  | .core f c deps, p, m, env, _, _ => ⟨by simp only [load, call0, callR, Prog.run], fun _ _ => rfl⟩
  | .unwrapped inner, p, m, env, h, _ => by
    obtain ⟨h1, h2, -⟩ := evalR_run hg (.unwrapped inner) p m env h
    rw [load, evalR] at h1
    rw [evalR] at h2
    rw [load, call0, h1, callR, run_bind]
    generalize (evalR g p inner).run m env = x at h2 ⊢
    obtain ⟨o, m1, env1⟩ := x
    simp only at h2 ⊢
    rcases o with r | e | _ | _
    · simp only [Out.map]
      cases hl : r.live with
      | true => simp [Prog.run, run_bind, readRef_run, resolve, hl, load]; exact h2
      | false => simp [Prog.run, resolve, hl, load]; exact h2
    all_goals exact ⟨rfl, h2⟩
  | .unregularized inner, p, m, env, h, hT => by
    have hT' : SameRV m p inner := by simpa only [SameRV, load, Obj.valueIsRV] using hT
    obtain ⟨h1, h2⟩ := callR_run hg inner p m env (fun u hu => h u (by rw [fns]; exact hu)) hT'
    refine ⟨?_, ?_⟩
    · rw [load, call0, h1, callR, run_bind, hT']
      simp [Prog.run, keep, hg.2.2.2, load]
    · rw [callR, run_bind]
      exact h2

end Pigro.Thr
