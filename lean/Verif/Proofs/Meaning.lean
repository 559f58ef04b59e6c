import Verif.Spec.Meaning
import Verif.Proofs.LazyHist
import Verif.Proofs.LazyMore
/-!
# Proofs: programs with the same meaning
-/
namespace Pigro.Mng
variable {D W W' E S S' O : Type}

/-- Trees that mean the same, one by one. -/
def SameTrees (m : Meaning D W E S O) (m' : Meaning D W' E S' O) (ts : List (Tree D W E S)) (ts' : List (Tree D W' E S')) : Prop :=
  ts.length = ts'.length ∧ ∀ (i : Nat) t t', ts[i]? = some t → ts'[i]? = some t' → ∀ o, m.eager o t = m'.eager o t' ∧ m.result o t = m'.result o t'

theorem SameTrees.snoc {m : Meaning D W E S O} {m' : Meaning D W' E S' O} {ts : List (Tree D W E S)} {ts' : List (Tree D W' E S')} (h : SameTrees m m' ts ts')
    {t : Tree D W E S} {t' : Tree D W' E S'} (ht : ∀ o, m.eager o t = m'.eager o t' ∧ m.result o t = m'.result o t') : SameTrees m m' (ts ++ [t]) (ts' ++ [t']) := by
  refine ⟨by simp [h.1], ?_⟩
  intro i x x' hx hx'
  rw [List.getElem?_append] at hx hx'
  rw [← h.1] at hx'
  split at hx
  · rename_i hl
    rw [if_pos hl] at hx'
    exact h.2 i x x' hx hx'
  · rename_i hl
    rw [if_neg hl] at hx'
    rcases hk : i - ts.length with _ | k
    · rw [hk] at hx hx'
      simp only [List.getElem?_cons_zero, Option.some.injEq] at hx hx'
      rw [← hx, ← hx']
      exact ht
    · rw [hk] at hx
      simp at hx

theorem runTrees_snoc (l : List (Op D W E S)) (op : Op D W E S) : runTrees [] (l ++ [op]) = stepTrees (runTrees [] l) op := by
  simp [runTrees]

theorem trees_same {m : Meaning D W E S O} {m' : Meaning D W' E S' O} {ops : List (Op D W E S)} {ops' : List (Op D W' E S')} (h : Alongside m m' ops ops') :
    SameTrees m m' (runTrees [] ops) (runTrees [] ops') := by
  induction h with
  | nil => exact ⟨rfl, by intro i t t' ht; simp [runTrees] at ht⟩
  | mk f f' ds ds' _ hd ih =>
    rw [runTrees_snoc, runTrees_snoc]
    simp only [stepTrees]
    generalize argTrees _ ds = x at hd
    generalize argTrees _ ds' = x' at hd
    rcases x with _ | us <;> rcases x' with _ | us'
    · exact ih
    · exact hd.elim
    · exact hd.elim
    · refine ih.snoc fun o => ⟨hd.2 o, ?_⟩
      simp only [Meaning.result, hd.2 o]
      by_cases hr : f.ret = .val
      · rw [if_pos hr, if_pos (hd.1.1 hr)]
      · rw [if_neg hr, if_neg (fun h => hr (hd.1.2 h))]
  | copy i _ ih =>
    rw [runTrees_snoc, runTrees_snoc]
    simp only [stepTrees]
    rcases hx : (runTrees [] _)[i]? with _ | t <;> rcases hx' : (runTrees [] _)[i]? with _ | t'
    · exact ih
    · rw [List.getElem?_eq_none_iff, ih.1, ← List.getElem?_eq_none_iff, hx'] at hx
      cases hx
    · rw [List.getElem?_eq_none_iff, ← ih.1, ← List.getElem?_eq_none_iff, hx] at hx'
      cases hx'
    · exact ih.snoc (ih.2 i t t' hx hx')
  | call i _ ih => rw [runTrees_snoc, runTrees_snoc]; exact ih
  | poll i _ ih => rw [runTrees_snoc, runTrees_snoc]; exact ih
  | poke h h' _ _ ih => rw [runTrees_snoc, runTrees_snoc]; exact ih

theorem args_same {m : Meaning D W E S O} {ts ts' : List (Tree D W E S)} (h : SameTrees m m ts ts') : ∀ as : List (ArgRef D W E S),
    match argTrees ts as, argTrees ts' as with
    | none, none => True
    | some us, some us' => ∀ o, us.map (m.eager o) = us'.map (m.eager o)
    | _, _ => False
  | [] => by simp [argTrees]
  | a :: as => by
    have ih := args_same h as
    have ha : match a.tree ts, a.tree ts' with
        | none, none => True
        | some t, some t' => ∀ o, m.eager o t = m.eager o t'
        | _, _ => False := by
      cases a with
      | value v => simp [ArgRef.tree]
      | function u =>
        simp only [ArgRef.tree]
        by_cases hu : u.ret = .void <;> simp [hu]
      | var i =>
        simp only [ArgRef.tree]
        rcases hx : ts[i]? with _ | t <;> rcases hx' : ts'[i]? with _ | t'
        · trivial
        · rw [List.getElem?_eq_none_iff, h.1, ← List.getElem?_eq_none_iff, hx'] at hx
          cases hx
        · rw [List.getElem?_eq_none_iff, ← h.1, ← List.getElem?_eq_none_iff, hx] at hx'
          cases hx'
        · exact fun o => (h.2 i t t' hx hx' o).1
    simp only [argTrees]
    rcases hx : a.tree ts with _ | t <;> rcases hx' : a.tree ts' with _ | t' <;> rw [hx, hx'] at ha
    · trivial
    · exact ha.elim
    · exact ha.elim
    · rcases hy : argTrees ts as with _ | us <;> rcases hy' : argTrees ts' as with _ | us' <;> rw [hy, hy'] at ih
      · trivial
      · exact ih.elim
      · exact ih.elim
      · intro o
        simp only [List.map_cons, ha o, ih o]

/-- Programs of the same meaning may be continued in the same way. -/
theorem Alongside.more {m : Meaning D W E S O} {l l' : List (Op D W E S)} (h : Alongside m m l l') : ∀ {ops : List (Op D W E S)}, PokesOk m ops → Alongside m m (l ++ ops) (l' ++ ops) := by
  intro ops
  induction ops generalizing l l' with
  | nil => intro _; simpa using h
  | cons op ops ih =>
    intro hp
    have hp' : PokesOk m ops := fun h hm => hp h (by simp [hm])
    have key : Alongside m m (l ++ [op]) (l' ++ [op]) := by
      cases op with
      | mk f ds =>
        refine .mk f f ds ds h ?_
        have := args_same (trees_same h) ds
        rcases hx : argTrees (runTrees [] l) ds with _ | us <;> rcases hx' : argTrees (runTrees [] l') ds with _ | us' <;> rw [hx, hx'] at this
        · trivial
        · exact this.elim
        · exact this.elim
        · refine ⟨Iff.rfl, fun o => ?_⟩
          simp only [Meaning.eager, this o]
      | copy i => exact .copy i h
      | call i => exact .call i h
      | poll i => exact .poll i h
      | poke k => exact .poke k k h (hp k (by simp))
    have := ih key hp'
    simpa using this

theorem argTrees_get {ts : List (Tree D W E S)} : ∀ (ds : List (ArgRef D W E S)) (us : List (Tree D W E S)), argTrees ts ds = some us →
    us.length = ds.length ∧ ∀ (k : Nat) a, ds[k]? = some a → a.tree ts = us[k]?
  | [], us, h => by simp [argTrees] at h; subst h; simp
  | d :: ds, us, h => by
    simp only [argTrees] at h
    rcases hx : d.tree ts with _ | t <;> rw [hx] at h
    · simp at h
    rcases hy : argTrees ts ds with _ | vs <;> rw [hy] at h
    · simp at h
    simp only [Option.some.injEq] at h
    subst h
    obtain ⟨h1, h2⟩ := argTrees_get ds vs hy
    refine ⟨by simp [h1], ?_⟩
    intro k a ha
    cases k with
    | zero => simp only [List.getElem?_cons_zero, Option.some.injEq] at ha ⊢; rw [← ha, hx]
    | succ k => simp only [List.getElem?_cons_succ] at ha ⊢; exact h2 k a ha

theorem argTrees_pick {ts : List (Tree D W E S)} {ds : List (ArgRef D W E S)} {us : List (Tree D W E S)} (h : argTrees ts ds = some us) :
    ∀ ks : List Nat, argTrees ts (pick ks ds) = some (pick ks us)
  | [] => rfl
  | k :: ks => by
    obtain ⟨h1, h2⟩ := argTrees_get ds us h
    have ih := argTrees_pick h ks
    simp only [pick, List.filterMap_cons] at ih ⊢
    rcases hk : ds[k]? with _ | a
    · have : us[k]? = none := by rw [List.getElem?_eq_none_iff, h1, ← List.getElem?_eq_none_iff]; exact hk
      simp only [this]
      exact ih
    · have ha := h2 k a hk
      have hlt : k < us.length := by rw [h1]; exact (List.getElem?_eq_some_iff.1 hk).1
      rw [List.getElem?_eq_getElem hlt] at ha ⊢
      simp only [argTrees, ha, ih]

theorem pick_map {α β : Type} (e : α → β) (ks : List Nat) (l : List α) : (pick ks l).map e = pick ks (l.map e) := by
  induction ks with
  | nil => rfl
  | cons k ks ih =>
    simp only [pick, List.filterMap_cons, List.getElem?_map] at ih ⊢
    rcases l[k]? with _ | a
    · exact ih
    · simp [ih]

variable [CxxData D]

omit [CxxData D] in
theorem mem_snoc (op : Op D W E S) (l : List (Op D W E S)) : ∀ t ∈ runTrees [] l, t ∈ runTrees [] (l ++ [op]) := by
  intro t ht
  rw [runTrees_snoc]
  cases op with
  | mk f ds => simp only [stepTrees]; split <;> simp [ht]
  | copy i => simp only [stepTrees]; split <;> simp [ht]
  | _ => exact ht

/-- One evaluation, in any reachable state. -/
theorem reach_eval (hs : SoundNe D) (g : Glue) (hg : g.Retains ∨ g.Drops) (m : Meaning D W E S O) (w : W) (ops : List (Op D W E S))
    (hok : ∀ t ∈ runTrees [] ops, TreeOk g m t) (i : Nat) (t : Tree D W E S) (ht : (runTrees [] ops)[i]? = some t) :
    let s := after g w ops
    (step g s (.call i)).1 = .ret (.ok (m.result (m.obs s.env.w) t)) ∧ m.obs (step g s (.call i)).2.env.w = m.obs s.env.w ∧
      m.obs (step g s (.poll i)).2.env.w = m.obs s.env.w ∧
      (ReflNe D → ∃ o, s.vars[i]? = some o ∧
        (step g s (.poll i)).1 = .polled (.ok ⟨m.eager (m.obs s.env.w) t, flag o.lastVal (m.eager (m.obs s.env.w) t), true⟩)) := by
  intro s
  obtain ⟨o, c, us, ho, rfl, hsh⟩ := vars_of_tree g w ops i t ht
  have hc := reach_cons hs g hg m w ops hok i _ o ht ho
  have hk := hok _ (List.mem_of_getElem? ht)
  obtain ⟨r, o', env', he, hv, hl, _, hobs, _, hf⟩ := evalN_stepOk hs g m _ o s.env hsh hk.1 hk.2.1 hk.2.2 hc
  rw [step_call g s i o ho, step_poll g s i o ho]
  refine ⟨by rw [call0_stepOk hs g m c us o _ hsh hk hc], ?_, ?_, ?_⟩
  · simp only [call0_obj g c us o _ hsh, he, hobs]
  · simp only [he, hobs]
  · intro hr
    refine ⟨o, ho, ?_⟩
    simp only [he]
    obtain ⟨v, ch, lv⟩ := r
    simp only at hv hl
    have := (hf hr).1
    simp only at this
    rw [← hv, hl, this]

/-- What the two programs have seen so far is the same, and what they can observe. -/
structure Agree (g g' : Glue) (m : Meaning D W E S O) (m' : Meaning D W' E S' O) (w : W) (w' : W') (ops : List (Op D W E S)) (ops' : List (Op D W' E S')) : Prop where
  obs : (run g (State.init w) ops).1 = (run g' (State.init w') ops').1
  world : m.obs (after g w ops).env.w = m'.obs (after g' w' ops').env.w
  noUb : ∀ ob ∈ (run g (State.init w) ops).1, ob ≠ .ret .ub

theorem run_snoc (g : Glue) (s : State D W E S) (l : List (Op D W E S)) (op : Op D W E S) :
    run g s (l ++ [op]) = ((run g s l).1 ++ [(step g (run g s l).2 op).1], (step g (run g s l).2 op).2) := by
  rw [run_append]; rfl

theorem Agree.snoc {g g' : Glue} {m : Meaning D W E S O} {m' : Meaning D W' E S' O} {w : W} {w' : W'} {l : List (Op D W E S)} {l' : List (Op D W' E S')}
    (h : Agree g g' m m' w w' l l') {op : Op D W E S} {op' : Op D W' E S'} (h1 : (step g (after g w l) op).1 = (step g' (after g' w' l') op').1)
    (h2 : m.obs (step g (after g w l) op).2.env.w = m'.obs (step g' (after g' w' l') op').2.env.w) (h3 : (step g (after g w l) op).1 ≠ .ret .ub) :
    Agree g g' m m' w w' (l ++ [op]) (l' ++ [op']) := by
  refine ⟨?_, ?_, ?_⟩
  · rw [run_snoc, run_snoc]
    simp only [h.obs, h1]
  · simp only [after, run_snoc]; exact h2
  · rw [run_snoc]
    intro ob hob
    simp only [List.mem_append, List.mem_singleton] at hob
    rcases hob with hob | rfl
    · exact h.noUb ob hob
    · exact h3

/-- The two operations are of the same kind. -/
def SameKind (op : Op D W E S) (op' : Op D W' E S') : Prop := ∀ (l : List (Option (Val D))) ob, track l op ob = track l op' ob

theorem kept (g g' : Glue) (hg : g.keepsCache) (hg' : g'.keepsCache) {m : Meaning D W E S O} {m' : Meaning D W' E S' O} {w : W} {w' : W'}
    {l : List (Op D W E S)} {l' : List (Op D W' E S')} (ha : Alongside m m' l l') (hub : ∀ ob ∈ (run g (State.init w) l).1, ob ≠ .ret .ub)
    (ho : (run g (State.init w) l).1 = (run g' (State.init w') l').1) : (after g w l).vars.map Obj.lastVal = (after g' w' l').vars.map Obj.lastVal := by
  induction ha with
  | nil => rfl
  | mk f f' ds ds' _ _ ih | copy i _ ih | call i _ ih | poll i _ ih | poke h h' _ _ ih =>
    rw [run_snoc, run_snoc] at ho
    rw [run_snoc] at hub
    simp only at ho hub
    obtain ⟨h1, h2⟩ := List.append_inj' ho rfl
    simp only [List.cons.injEq, and_true] at h2
    have hi := ih (fun ob hob => hub ob (by simp [hob])) h1
    have hu := hub _ (List.mem_append_right _ (List.mem_singleton.2 rfl))
    have e1 := seen_step g hg (reach_inv g w _) rfl _ hu
    have e2 := seen_step g' hg' (reach_inv g' w' _) rfl _ (h2 ▸ hu)
    simp only [Seen] at e1 e2
    simp only [after, run_snoc]
    rw [← e1, ← e2, h2]
    simp only [after] at hi
    rw [hi]
    refine (?_ : SameKind _ _) _ _
    intro L ob
    rcases ob with _ | ((_ | _) | _ | _ | _) | (_ | _ | _ | _) | _ <;> rfl

/-- One operation in both programs. -/
theorem agree (hs : SoundNe D) (g g' : Glue) (hg : g.Retains ∨ g.Drops) (hg' : g'.Retains ∨ g'.Drops) {m : Meaning D W E S O} {m' : Meaning D W' E S' O} {w : W} {w' : W'}
    (hw : m.obs w = m'.obs w') {ops : List (Op D W E S)} {ops' : List (Op D W' E S')} (h : Alongside m m' ops ops') (hok : ∀ t ∈ runTrees [] ops, TreeOk g m t)
    (hok' : ∀ t ∈ runTrees [] ops', TreeOk g' m' t) (hp : NoPolls ops ∨ ReflNe D ∧ (g.Retains ∧ g'.Retains ∨ g.Drops ∧ g'.Drops)) : Agree g g' m m' w w' ops ops' := by
  induction h with
  | nil => exact ⟨rfl, hw, by simp [run]⟩
  | @mk l l' f f' ds ds' ha hd ih =>
    have ih := ih (fun t ht => hok t (mem_snoc _ _ t ht)) (fun t ht => hok' t (mem_snoc _ _ t ht)) (hp.imp (fun h i hi => h i (by simp [hi])) id)
    have k1 := mk_tree (reach_inv g w l).shape (reach_inv g w l).lz f ds
    have k2 := mk_tree (reach_inv g' w' l').shape (reach_inv g' w' l').lz f' ds'
    rcases hx : argTrees (runTrees [] l) ds with _ | us <;> rcases hx' : argTrees (runTrees [] l') ds' with _ | us' <;> rw [hx, hx'] at hd
    · refine ih.snoc ?_ ?_ ?_ <;> simp only [step, k1.2 hx, k2.2 hx', ih.world]
      simp
    · exact hd.elim
    · exact hd.elim
    · obtain ⟨os, hos, _⟩ := k1.1 us hx
      obtain ⟨os', hos', _⟩ := k2.1 us' hx'
      refine ih.snoc ?_ ?_ ?_ <;> simp only [step, hos, hos', ih.world]
      simp
  | @copy l l' i ha ih =>
    have ih := ih (fun t ht => hok t (mem_snoc _ _ t ht)) (fun t ht => hok' t (mem_snoc _ _ t ht)) (hp.imp (fun h i hi => h i (by simp [hi])) id)
    have hl : (after g w l).vars.length = (after g' w' l').vars.length := by
      rw [← (reach_inv g w l).shape.length, ← (reach_inv g' w' l').shape.length, (trees_same ha).1]
    rcases hx : (after g w l).vars[i]? with _ | o <;> rcases hx' : (after g' w' l').vars[i]? with _ | o'
    · refine ih.snoc ?_ ?_ ?_ <;> simp only [step, hx, hx', ih.world]
      simp
    · rw [List.getElem?_eq_none_iff, hl, ← List.getElem?_eq_none_iff, hx'] at hx
      cases hx
    · rw [List.getElem?_eq_none_iff, ← hl, ← List.getElem?_eq_none_iff, hx] at hx'
      cases hx'
    · refine ih.snoc ?_ ?_ ?_ <;> simp only [step, hx, hx', ih.world]
      simp
  | @call l l' i ha ih =>
    rw [runTrees_snoc] at hok hok'
    have ih := ih hok hok' (hp.imp (fun h i hi => h i (by simp [hi])) id)
    have ht := trees_same ha
    have hv : ∀ (j : Nat), (after g w l).vars[j]? = none ↔ (runTrees [] l)[j]? = none := by
      intro j; rw [List.getElem?_eq_none_iff, List.getElem?_eq_none_iff, (reach_inv g w l).shape.length]
    have hv' : ∀ (j : Nat), (after g' w' l').vars[j]? = none ↔ (runTrees [] l')[j]? = none := by
      intro j; rw [List.getElem?_eq_none_iff, List.getElem?_eq_none_iff, (reach_inv g' w' l').shape.length]
    rcases hx : (runTrees [] l)[i]? with _ | t <;> rcases hx' : (runTrees [] l')[i]? with _ | t'
    · refine ih.snoc ?_ ?_ ?_ <;> simp only [step, (hv i).2 hx, (hv' i).2 hx', ih.world]
      simp
    · rw [List.getElem?_eq_none_iff, ht.1, ← List.getElem?_eq_none_iff, hx'] at hx
      cases hx
    · rw [List.getElem?_eq_none_iff, ← ht.1, ← List.getElem?_eq_none_iff, hx] at hx'
      cases hx'
    · have e1 := reach_eval hs g hg m w l hok i t hx
      have e2 := reach_eval hs g' hg' m' w' l' hok' i t' hx'
      simp only at e1 e2
      refine ih.snoc ?_ ?_ ?_
      · rw [e1.1, e2.1, ih.world, (ht.2 i t t' hx hx' _).2]
      · rw [e1.2.1, e2.2.1, ih.world]
      · rw [e1.1]; simp
  | @poll l l' i ha ih =>
    rw [runTrees_snoc] at hok hok'
    rcases hp with hp | hp
    · exact absurd (by simp) (hp i)
    have ih := ih hok hok' (.inr hp)
    have ht := trees_same ha
    have hv : ∀ (j : Nat), (after g w l).vars[j]? = none ↔ (runTrees [] l)[j]? = none := by
      intro j; rw [List.getElem?_eq_none_iff, List.getElem?_eq_none_iff, (reach_inv g w l).shape.length]
    have hv' : ∀ (j : Nat), (after g' w' l').vars[j]? = none ↔ (runTrees [] l')[j]? = none := by
      intro j; rw [List.getElem?_eq_none_iff, List.getElem?_eq_none_iff, (reach_inv g' w' l').shape.length]
    rcases hx : (runTrees [] l)[i]? with _ | t <;> rcases hx' : (runTrees [] l')[i]? with _ | t'
    · refine ih.snoc ?_ ?_ ?_ <;> simp only [step, (hv i).2 hx, (hv' i).2 hx', ih.world]
      simp
    · rw [List.getElem?_eq_none_iff, ht.1, ← List.getElem?_eq_none_iff, hx'] at hx
      cases hx
    · rw [List.getElem?_eq_none_iff, ← ht.1, ← List.getElem?_eq_none_iff, hx] at hx'
      cases hx'
    · have e1 := reach_eval hs g hg m w l hok i t hx
      have e2 := reach_eval hs g' hg' m' w' l' hok' i t' hx'
      simp only at e1 e2
      obtain ⟨-, -, q1, p1⟩ := e1
      obtain ⟨-, -, q2, p2⟩ := e2
      obtain ⟨o, ho, p1⟩ := p1 hp.1
      obtain ⟨o', ho', p2⟩ := p2 hp.1
      have hlast : o.lastVal = o'.lastVal := by
        rcases hp.2 with ⟨h1, h2⟩ | ⟨h1, h2⟩
        · have hk := kept g g' ⟨h1.1, h1.2.2.1, h1.2.2.2⟩ ⟨h2.1, h2.2.2.1, h2.2.2.2⟩ ha ih.noUb ih.obs
          have := congrArg (·[i]?) hk
          simp only [List.getElem?_map] at this
          rw [ho, ho'] at this
          simpa using this
        · have q1 : o.Pristine := reach_pristine g h1 w l i t o hx ho
          have q2 : o'.Pristine := reach_pristine g' h2 w' l' i t' o' hx' ho'
          obtain ⟨_, c, us, ho2, rfl, hsh⟩ := vars_of_tree g w l i t hx
          obtain ⟨_, c', us', ho2', rfl, hsh'⟩ := vars_of_tree g' w' l' i t' hx'
          obtain rfl : _ = o := Option.some.inj (ho2.symm.trans ho)
          obtain rfl : _ = o' := Option.some.inj (ho2'.symm.trans ho')
          simp only [Shape] at hsh hsh'
          obtain ⟨u, cache, ds, -, -, -, rfl⟩ := hsh
          obtain ⟨u', cache', ds', -, -, -, rfl⟩ := hsh'
          simp only [Obj.Pristine] at q1 q2
          simp only [Obj.lastVal, q1.1, q2.1]
      refine ih.snoc ?_ ?_ ?_
      · rw [p1, p2, ih.world, (ht.2 i t t' hx hx' _).1, hlast]
      · rw [q1, q2, ih.world]
      · rw [p1]; simp
  | poke h h' ha hh ih =>
    rw [runTrees_snoc] at hok hok'
    have ih := ih hok hok' (hp.imp (fun h i hi => h i (by simp [hi])) id)
    refine ih.snoc ?_ ?_ ?_ <;> simp only [step]
    · exact hh _ _ ih.world
    · simp

end Pigro.Mng
