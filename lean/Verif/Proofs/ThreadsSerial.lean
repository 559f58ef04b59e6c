import Verif.Proofs.ThreadsWork
/-!
# Calls one after another
-/
namespace Pigro.Thr
variable {D W E S α β ι : Type}

theorem callR_settled [CxxData D] {g : Glue} (hg : g.Retains) : ∀ (o : Obj D W E S) (p : Loc) (m : Mem D) (env : Env D W S), Settled (load m p o) → SameRV m p o →
    (callR g p o).Idle m ∧ call0 g (load m p o) env = (((callR g p o).run m env).1, load m p o, env)
  | .lazyValue v c, p, m, env, _, _ => ⟨trivial, rfl⟩
  | .core f c deps, p, m, env, _, _ => ⟨trivial, by simp only [load, call0, callR, Prog.run]⟩
  | .unwrapped inner, p, m, env, h, _ => by
    obtain ⟨h1, r, r1, r2, r3⟩ := evalR_settled hg (.unwrapped inner) p m env h
    rw [evalR] at h1 r1
    rw [load] at r3
    rw [callR, load, call0, r3, run_bind, r1]
    refine ⟨idle_bind h1 env ?_, ?_⟩
    · rw [r1]
      simp only
      split
      · exact idle_bind (readRef_idle r m) env trivial
      · trivial
    · simp only [idle_run h1]
      cases hl : r.live with
      | true => simp [Prog.run, run_bind, readRef_run, resolve, hl]
      | false => simp [Prog.run, resolve, hl]
  | .unregularized inner, p, m, env, h, hT => by
    have hT' : SameRV m p inner := by simpa only [SameRV, load, Obj.valueIsRV] using hT
    rw [load, Settled] at h
    obtain ⟨h1, h2⟩ := callR_settled hg inner p m env h hT'
    rw [callR, load, call0, h2, run_bind, hT']
    exact ⟨idle_bind h1 env trivial, by simp [Prog.run, keep]⟩

mutual
theorem load_load (m m' : Mem D) : ∀ (o : Obj D W E S) (p : Loc), load m' p (load m p o) = load m' p o
  | .lazyValue _ _, _ => rfl
  | .core f c deps, p => by rw [load, load, load, loadDeps_load m m' deps]
  | .unwrapped inner, p => by rw [load, load, load, load_load m m' inner]
  | .unregularized inner, p => by rw [load, load, load, load_load m m' inner]
theorem loadDeps_load (m m' : Mem D) : ∀ (ds : List (Obj D W E S)) (p : Loc) (i : Nat), loadDeps m' p i (loadDeps m p i ds) = loadDeps m' p i ds
  | [], _, _ => rfl
  | d :: ds, p, i => by rw [loadDeps, loadDeps, loadDeps, load_load m m' d, loadDeps_load m m' ds]
end

mutual
theorem fns_load (m : Mem D) : ∀ (o : Obj D W E S) (p : Loc), fns (load m p o) = fns o
  | .lazyValue _ _, _ => rfl
  | .core f c deps, p => by rw [load, fns, fns, fns_loadDeps m deps]
  | .unwrapped inner, p => by rw [load, fns, fns, fns_load m inner]
  | .unregularized inner, p => by rw [load, fns, fns, fns_load m inner]
theorem fns_loadDeps (m : Mem D) : ∀ (ds : List (Obj D W E S)) (p : Loc) (i : Nat), (loadDeps m p i ds).map fns = ds.map fns
  | [], _, _ => rfl
  | d :: ds, p, i => by rw [loadDeps, List.map_cons, List.map_cons, fns_load m d, fns_loadDeps m ds]
end

mutual
theorem evalR_load [CxxData D] (g : Glue) (m : Mem D) : ∀ (o : Obj D W E S) (p q : Loc) , evalR g p (load m q o) = evalR g p o
  | .lazyValue _ _, _, _ => rfl
  | .core f c deps, p, q => by rw [load, evalR, evalR, depsR_load g m deps]
  | .unwrapped inner, p, q => by rw [load, evalR, evalR, evalR_load g m inner]
  | .unregularized inner, p, q => by rw [load, evalR, evalR, evalR_load g m inner]
theorem depsR_load [CxxData D] (g : Glue) (m : Mem D) : ∀ (ds : List (Obj D W E S)) (p q : Loc) (i j : Nat), depsR g p i (loadDeps m q j ds) = depsR g p i ds
  | [], _, _, _, _ => rfl
  | d :: ds, p, q, i, j => by
    rw [loadDeps, depsR, depsR, evalR_load g m d]
    congr
    funext o
    rcases o with r | e | _ | _
    · simp only [depsR_load g m ds]
    all_goals rfl
end

theorem callR_load [CxxData D] (g : Glue) (m : Mem D) : ∀ (o : Obj D W E S) (p : Loc), SameRV m p o → callR g p (load m p o) = callR g p o
  | .lazyValue _ _, _, _ => rfl
  | .core _ _ _, p, _ => by simp only [load, callR]
  | .unwrapped inner, p, _ => by rw [load, callR, callR, evalR_load]
  | .unregularized inner, p, hT => by
    have hT' : SameRV m p inner := by simpa only [SameRV, load, Obj.valueIsRV] using hT
    rw [load, callR, callR, callR_load g m inner p hT', hT']

theorem coreTail_rv [CxxData D] (g : Glue) (f f' : Fun D W E S) (c : Cache D) (rs : List (LazyRes D)) (env : Env D W S) (ds ds' : List (Obj D W E S)) :
    (Obj.core f' (Pigro.coreTail g f c rs env).2.2.1 ds' : Obj D W E S).valueIsRV = (Obj.core f c ds).valueIsRV := by
  have ha : ∀ r, (Obj.core f' (c.assign r) ds' : Obj D W E S).valueIsRV = (Obj.core f c ds).valueIsRV := by intro r; rcases c with o | o <;> rfl
  have hc : (Obj.core f' c ds' : Obj D W E S).valueIsRV = (Obj.core f c ds).valueIsRV := by rcases c with o | o <;> rfl
  simp only [Pigro.coreTail]
  split
  · split
    · exact hc
    · split
      · split <;> exact ha _
      · exact hc
  · split <;> exact hc

theorem evalN_rv [CxxData D] (g : Glue) : ∀ (o : Obj D W E S) (env : Env D W S), (evalN g o env).2.1.valueIsRV = o.valueIsRV
  | .lazyValue _ _, _ => rfl
  | .core f c deps, env => by
    rw [evalN]
    rcases evalDeps g deps env with ⟨o, ds', env1⟩
    have hc : ∀ f' ds', (Obj.core f' c ds' : Obj D W E S).valueIsRV = (Obj.core f c deps).valueIsRV := by intro f' ds'; rcases c with o | o <;> rfl
    rcases o with rs | e | _ | _
    · simp only
      cases hb : g.bindFrontCopies with
      | true => exact hc _ _
      | false => exact coreTail_rv g f _ c rs env1 deps _
    all_goals exact hc _ _
  | .unwrapped inner, env => by
    rw [evalN]
    simp only [Obj.valueIsRV]
    unfold keep
    split
    · rfl
    · exact evalN_rv g inner env
  | .unregularized inner, env => by
    rw [evalN]
    simp only [Obj.valueIsRV]
    unfold keep
    split
    · rfl
    · exact evalN_rv g inner env

theorem call0_rv [CxxData D] (g : Glue) : ∀ (o : Obj D W E S) (env : Env D W S), (call0 g o env).2.1.valueIsRV = o.valueIsRV
  | .lazyValue _ _, _ => rfl
  | .core _ _ _, _ => rfl
  | .unwrapped inner, env => by
    have := evalN_rv g (.unwrapped inner) env
    rw [call0]
    generalize evalN g (.unwrapped inner) env = x at this ⊢
    obtain ⟨o, o', env'⟩ := x
    rcases o with r | e | _ | _ <;> exact this
  | .unregularized inner, env => by
    rw [call0]
    simp only [Obj.valueIsRV]
    unfold keep
    split
    · rfl
    · exact call0_rv g inner env

theorem exec_idle_thr [DecidableEq ι] (is : List ι) : ∀ (s : Sys D W E S ι α), (∀ i, (s.thr i).Idle s.mem) → ∀ i, (exec s is).thr i = (alone s.mem s.env (s.thr i) (is.count i)).2.2 := by
  induction is with
  | nil => exact fun s _ i => rfl
  | cons j is ih =>
    intro s h i
    have hc := exec_idle [j] s h
    have hm : (tick s j).mem = s.mem := hc.1
    have he : (tick s j).env = s.env := hc.2.1
    have := ih (tick s j) (by rw [hm]; exact hc.2.2.1) i
    rw [hm, he] at this
    refine this.trans ?_
    by_cases hij : i = j
    · subst hij
      rw [List.count_cons_self, alone_first]
      obtain ⟨a1, a2, -, -⟩ := idle_advance (h i) s.env
      rw [a1, a2]
      simp [tick]
    · rw [List.count_cons_of_ne (fun h => hij h.symm)]
      simp [tick, hij]

theorem returns_idle [DecidableEq ι] {s : Sys D W E S ι α} (h : ∀ i, (s.thr i).Idle s.mem) (i : ι) : Returns s i ((s.thr i).run s.mem s.env).1 := by
  obtain ⟨N, hN⟩ := alone_done s.mem s.env (s.thr i)
  refine ⟨⟨N, fun is his => ?_⟩, fun is b hb => ?_⟩
  · rw [exec_idle_thr is s h, hN _ his]
  · rw [exec_idle_thr is s h] at hb
    exact (alone_ret hb).1

theorem returns_separate [DecidableEq ι] {s : Sys D W E S ι α} (hp : ∀ i, (s.thr i).Calls Pure) (hs : Separate s) (i : ι) : Returns s i ((s.thr i).run s.mem s.env).1 :=
  ⟨ends_separate hp hs i, fun is _ hb => result_separate hp hs is hb⟩

theorem exec_readonly [DecidableEq ι] {Q : UFn D W E S → Prop} {R : Loc → Prop} {Post : α → Prop} (is : List ι) : ∀ (s : Sys D W E S ι α), (∀ i, (s.thr i).Inside R (fun _ => False) Q Post) →
    (exec s is).mem = s.mem := by
  induction is with
  | nil => exact fun _ _ => rfl
  | cons j is ih =>
    intro s h
    have hm : (tick s j).mem = s.mem := by
      funext q
      refine advance_mem s.mem s.env (s.thr j) q fun hw => ?_
      have := h j
      generalize s.thr j = P at this hw
      cases P with
      | wr l c k => exact this.1
      | _ => exact hw
    refine Eq.trans (ih (tick s j) fun i => ?_) hm
    exact inside_exec (R := fun _ => R) (Wr := fun _ _ => False) [j] s h i

theorem inside_alone {R Wr : Loc → Prop} {Q : UFn D W E S → Prop} {Post : α → Prop} {m : Mem D} {env : Env D W S} {P : Prog D W E S α} (h : P.Inside R Wr Q Post) (n : Nat) :
    (alone m env P n).2.2.Inside R Wr Q Post := by
  induction n with
  | zero => exact h
  | succ n ih => rw [alone_succ]; exact inside_advance ih _ _

theorem Prog.Inside.of_at {R Wr : Loc → Prop} {Q : UFn D W E S → Prop} {Post : α → Prop} {P : Prog D W E S α} {l : Loc} (h : P.Inside R Wr Q Post) (ha : P.at l) : R l ∨ Wr l := by
  cases P with
  | rd l' k => obtain rfl : l' = l := ha; exact Or.inl h.1
  | wr l' c k => obtain rfl : l' = l := ha; exact Or.inr h.1
  | _ => exact ha.elim

theorem Prog.Inside.of_writes {R Wr : Loc → Prop} {Q : UFn D W E S → Prop} {Post : α → Prop} {P : Prog D W E S α} {l : Loc} (h : P.Inside R Wr Q Post) (ha : P.writes l) : Wr l := by
  cases P with
  | wr l' c k => obtain rfl : l' = l := ha; exact h.1
  | _ => exact ha.elim

/-- Threads with locations of their own are separate. -/
theorem separate_inside {s : Sys D W E S ι α} {R Wr : ι → Loc → Prop} {Q : UFn D W E S → Prop} {Post : α → Prop} (h : ∀ i, (s.thr i).Inside (R i) (Wr i) Q Post)
    (hsep : ∀ i j l, i ≠ j → Wr j l → ¬ R i l ∧ ¬ Wr i l) : Separate s := by
  intro i j n n' l hij ha hw
  obtain ⟨h1, h2⟩ := hsep i j l hij ((inside_alone (h j) n').of_writes hw)
  exact ((inside_alone (h i) n).of_at ha).elim h1 h2

theorem log_append (P : Prog D W E S α) (m : Mem D) (env : Env D W S) : ∃ evs, (P.run m env).2.2.log = env.log ++ evs := by
  induction P generalizing m env with
  | ret a => exact ⟨[], by simp [Prog.run]⟩
  | rd l k ih => exact ih _ _ _
  | wr l c k ih => exact ih _ _
  | call kind u args k ih =>
    obtain ⟨evs, h⟩ := ih (u.invoke kind args env).1 m (u.invoke kind args env).2.2
    exact ⟨_, by rw [Prog.run, h, UFn.invoke, List.append_assoc]⟩
  | cmp a b k ih =>
    obtain ⟨evs, h⟩ := ih m ⟨env.w, env.log ++ [.cmp a b]⟩
    exact ⟨_, by rw [Prog.run, h, List.append_assoc]⟩

/-- Memory contains the variables. -/
def Holds (m : Mem D) (vars : List (Obj D W E S)) : Prop := ∀ r o, vars[r]? = some o → load m [r] o = o

theorem serial [CxxData D] [DecidableEq ι] {g : Glue} (hg : g.Retains) (v : ι → Nat) : ∀ (order : List ι) (s : Sys D W E S ι (Out E (Option (Val D)))) (vars : List (Obj D W E S)),
    order.Nodup → Holds s.mem vars → (∀ o ∈ vars, ∀ u ∈ fns o, Const u) → (∀ i ∈ order, ∃ o, vars[v i]? = some o ∧ s.thr i = callR g [v i] o) →
    ∃ N, ∀ n, N ≤ n → ∃ a : ι → Out E (Option (Val D)), (run g ⟨vars, s.env⟩ (order.map fun i => .call (v i))).1 = order.map (fun i => .ret (a i)) ∧
      (∀ i ∈ order, (exec s (order.flatMap (List.replicate n))).thr i = .ret (a i)) ∧ (∀ i, i ∉ order → (exec s (order.flatMap (List.replicate n))).thr i = s.thr i) ∧
      Holds (exec s (order.flatMap (List.replicate n))).mem (run g ⟨vars, s.env⟩ (order.map fun i => .call (v i))).2.vars ∧
      (exec s (order.flatMap (List.replicate n))).env = (run g ⟨vars, s.env⟩ (order.map fun i => .call (v i))).2.env := by
  intro order
  induction order with
  | nil => exact fun s vars _ hh _ _ => ⟨0, fun n _ => ⟨fun _ => .ub, rfl, fun _ h => absurd h List.not_mem_nil, fun _ _ => rfl, hh, rfl⟩⟩
  | cons i order ih =>
    intro s vars hnd hh hc ht
    obtain ⟨o, ho, hto⟩ := ht i List.mem_cons_self
    have hoo := hh _ _ ho
    have hrv : SameRV s.mem [v i] o := by unfold SameRV; rw [hoo]
    obtain ⟨N1, hN1⟩ := alone_done s.mem s.env (s.thr i)
    have hcall := callR_run hg o [v i] s.mem s.env (hc o (List.mem_of_getElem? ho)) hrv
    rw [hoo, ← hto] at hcall
    -- the state after the first call
    let s1 : Sys D W E S ι (Out E (Option (Val D))) := ⟨((s.thr i).run s.mem s.env).2.1, ((s.thr i).run s.mem s.env).2.2, fun j => if j = i then .ret ((s.thr i).run s.mem s.env).1 else s.thr j⟩
    have hs1 : ∀ n, N1 ≤ n → exec s (List.replicate n i) = s1 := by
      intro n hn
      rw [exec_replicate, hN1 n hn]
    let vars1 := vars.set (v i) (load s1.mem [v i] o)
    have hlen : v i < vars.length := by
      rcases Nat.lt_or_ge (v i) vars.length with h | h
      · exact h
      · rw [List.getElem?_eq_none h] at ho; cases ho
    have hother : ∀ r, r ≠ v i → ∀ q, [r] <:+ q → s1.mem q = s.mem q := fun r hr q hq => hcall.2 q fun hq' => hr (suffix_index (p := []) hq hq')
    have hh1 : Holds s1.mem vars1 := by
      intro r o' hr
      by_cases hri : r = v i
      · subst hri
        simp only [vars1, List.getElem?_set_self hlen] at hr
        injection hr with hr
        rw [← hr, load_load]
      · simp only [vars1] at hr
        rw [List.getElem?_set_ne (fun h => hri h.symm)] at hr
        rw [load_congr o' [r] (hother r hri)]
        exact hh r o' hr
    have hc1 : ∀ o' ∈ vars1, ∀ u ∈ fns o', Const u := by
      intro o' ho'
      rcases List.mem_or_eq_of_mem_set ho' with h | h
      · exact hc o' h
      · rw [h, fns_load]; exact hc o (List.mem_of_getElem? ho)
    have ht1 : ∀ j ∈ order, ∃ o', vars1[v j]? = some o' ∧ s1.thr j = callR g [v j] o' := by
      intro j hj
      have hji : j ≠ i := fun h => (List.nodup_cons.1 hnd).1 (h ▸ hj)
      obtain ⟨o', ho', hto'⟩ := ht j (List.mem_cons_of_mem _ hj)
      simp only [s1, hji, if_false, hto']
      by_cases hv : v j = v i
      · rw [hv] at ho' ⊢
        rw [ho] at ho'
        injection ho' with ho'
        subst ho'
        refine ⟨load s1.mem [v i] o, by simp only [vars1, List.getElem?_set_self hlen], ?_⟩
        rw [callR_load]
        unfold SameRV
        have := call0_rv g o s.env
        rw [hcall.1] at this
        exact this
      · exact ⟨o', by simp only [vars1]; rw [List.getElem?_set_ne (fun h => hv h.symm)]; exact ho', rfl⟩
    obtain ⟨N2, hN2⟩ := ih s1 vars1 (List.nodup_cons.1 hnd).2 hh1 hc1 ht1
    refine ⟨max N1 N2, fun n hn => ?_⟩
    obtain ⟨a, a1, a2, a3, a4, a5⟩ := hN2 n (by omega)
    have hstep : step g ⟨vars, s.env⟩ (.call (v i)) = (.ret ((s.thr i).run s.mem s.env).1, ⟨vars1, s1.env⟩) := by
      simp only [step, ho, hcall.1]
      rfl
    have hnot := (List.nodup_cons.1 hnd).1
    refine ⟨fun j => if j = i then ((s.thr i).run s.mem s.env).1 else a j, ?_, ?_, ?_, ?_, ?_⟩
    · simp only [List.map_cons, run, hstep, if_true, a1]
      congr 1
      refine List.map_congr_left fun j hj => ?_
      have hji : j ≠ i := fun h => hnot (h ▸ hj)
      simp [hji]
    · intro j hj
      rw [List.flatMap_cons, exec_append, hs1 n (by omega)]
      by_cases hji : j = i
      · subst hji
        rw [a3 j hnot]
        simp [s1]
      · rw [a2 j ((List.mem_cons.1 hj).resolve_left hji)]
        simp [hji]
    · intro j hj
      rw [List.flatMap_cons, exec_append, hs1 n (by omega), a3 j fun h => hj (List.mem_cons_of_mem _ h)]
      have hji : j ≠ i := fun h => hj (h ▸ List.mem_cons_self)
      simp [s1, hji]
    · rw [List.flatMap_cons, exec_append, hs1 n (by omega)]
      simp only [List.map_cons, run, hstep]
      exact a4
    · rw [List.flatMap_cons, exec_append, hs1 n (by omega)]
      simp only [List.map_cons, run, hstep]
      exact a5

end Pigro.Thr
