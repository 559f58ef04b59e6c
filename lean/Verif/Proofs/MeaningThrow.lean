import Verif.Proofs.Meaning
import Verif.Proofs.Throwing
/-!
# Proofs: programs with the same meaning, with functions that throw
-/
namespace Pigro.Mng
variable {D W W' E S S' O : Type}

/-- Trees that mean the same, one by one. -/
def SameTreesE (m : MeaningE D W E S O) (m' : MeaningE D W' E S' O) (ts : List (Tree D W E S)) (ts' : List (Tree D W' E S')) : Prop :=
  ts.length = ts'.length ∧ ∀ (i : Nat) t t', ts[i]? = some t → ts'[i]? = some t' → ∀ o, m.eager o t = m'.eager o t' ∧ m.result o t = m'.result o t'

theorem SameTreesE.snoc {m : MeaningE D W E S O} {m' : MeaningE D W' E S' O} {ts : List (Tree D W E S)} {ts' : List (Tree D W' E S')} (h : SameTreesE m m' ts ts')
    {t : Tree D W E S} {t' : Tree D W' E S'} (ht : ∀ o, m.eager o t = m'.eager o t' ∧ m.result o t = m'.result o t') : SameTreesE m m' (ts ++ [t]) (ts' ++ [t']) := by
  refine ⟨by simp [h.1], ?_⟩
  intro i x x' hx hx'
  rw [List.getElem?_append] at hx hx'
  rw [← h.1] at hx'
  split at hx
  · rename_i hl
    rw [if_pos hl] at hx'
    exact h.2 i x x' hx hx'
  · rename_i hl
    rw [if_neg hl] at hx'
    rcases hk : i - ts.length with _ | k
    · rw [hk] at hx hx'
      simp only [List.getElem?_cons_zero, Option.some.injEq] at hx hx'
      rw [← hx, ← hx']
      exact ht
    · rw [hk] at hx
      simp at hx

theorem trees_sameE {m : MeaningE D W E S O} {m' : MeaningE D W' E S' O} {ops : List (Op D W E S)} {ops' : List (Op D W' E S')} (h : AlongsideE m m' ops ops') :
    SameTreesE m m' (runTrees [] ops) (runTrees [] ops') := by
  induction h with
  | nil => exact ⟨rfl, by intro i t t' ht; simp [runTrees] at ht⟩
  | mk f f' ds ds' _ hd ih =>
    rw [runTrees_snoc, runTrees_snoc]
    simp only [stepTrees]
    generalize argTrees _ ds = x at hd
    generalize argTrees _ ds' = x' at hd
    rcases x with _ | us <;> rcases x' with _ | us'
    · exact ih
    · exact hd.elim
    · exact hd.elim
    · refine ih.snoc fun o => ⟨hd.2 o, ?_⟩
      simp only [MeaningE.result, hd.2 o]
      by_cases hr : f.ret = .val
      · simp only [if_pos hr, if_pos (hd.1.1 hr)]
      · simp only [if_neg hr, if_neg (fun h => hr (hd.1.2 h))]
  | copy i _ ih =>
    rw [runTrees_snoc, runTrees_snoc]
    simp only [stepTrees]
    rcases hx : (runTrees [] _)[i]? with _ | t <;> rcases hx' : (runTrees [] _)[i]? with _ | t'
    · exact ih
    · rw [List.getElem?_eq_none_iff, ih.1, ← List.getElem?_eq_none_iff, hx'] at hx
      cases hx
    · rw [List.getElem?_eq_none_iff, ← ih.1, ← List.getElem?_eq_none_iff, hx] at hx'
      cases hx'
    · exact ih.snoc (ih.2 i t t' hx hx')
  | call i _ ih => rw [runTrees_snoc, runTrees_snoc]; exact ih
  | poke h h' _ _ ih => rw [runTrees_snoc, runTrees_snoc]; exact ih

variable [CxxData D]

/-- One call, in any reachable state. -/
theorem reach_evalE (hs : SoundNe D) (g : Glue) (m : MeaningE D W E S O) (w : W) (ops : List (Op D W E S)) (hok : ∀ t ∈ runTrees [] ops, TreeOkE g m t) (i : Nat) (t : Tree D W E S)
    (ht : (runTrees [] ops)[i]? = some t) (hg : g.Drops ∨ (g.Retains ∧ (marks [] ops (run g (State.init w) ops).1)[i]? ≠ some true)) :
    let s := after g w ops
    (step g s (.call i)).1 = .ret (m.result (m.obs s.env.w) t) ∧ m.obs (step g s (.call i)).2.env.w = m.obs s.env.w := by
  intro s
  obtain ⟨o, c, us, ho, rfl, hsh⟩ := vars_of_tree g w ops i t ht
  have hk := hok _ (List.mem_of_getElem? ht)
  have hc : ConsE m (.lazy c us) o := by
    rcases hg with hg | ⟨hg, hm⟩
    · exact Pristine.consE m _ o hsh (reach_pristine g hg w ops i _ o ht ho)
    · have hu := run_unmarked hs g hg m ops (l := []) (init_inv w) hok ⟨rfl, by simp⟩
      refine hu.2 i _ o ?_ ht ho
      rcases hx : (marks [] ops (run g (State.init w) ops).1)[i]? with _ | b
      · rw [List.getElem?_eq_none_iff, hu.1, ← List.getElem?_eq_none_iff, ht] at hx
        cases hx
      · cases b
        · rfl
        · exact absurd hx hm
  obtain ⟨q, o', env', he, hobs, -⟩ := evalN_stepE hs g m _ o s.env hsh hk.1 hk.2.1 hk.2.2 hc
  rw [step_call g s i o ho]
  refine ⟨by rw [call0_stepE hs g m c us o _ hsh hk hc], ?_⟩
  simp only [call0_obj g c us o _ hsh, he, hobs]

theorem untroubled_init {g : Glue} {w : W} {l : List (Op D W E S)} {op : Op D W E S} (h : Untroubled g w (l ++ [op])) : Untroubled g w l :=
  h.imp id fun ⟨h1, h2⟩ => ⟨h1, fun a i r e => h2 a i (r ++ [op]) (by rw [e]; simp)⟩

theorem untroubled_call {g : Glue} {w : W} {l : List (Op D W E S)} {i : Nat} (h : Untroubled g w (l ++ [.call i])) :
    g.Drops ∨ (g.Retains ∧ (marks [] l (run g (State.init w) l).1)[i]? ≠ some true) :=
  h.imp id fun ⟨h1, h2⟩ => ⟨h1, h2 l i [] rfl⟩

/-- What the two programs have seen so far is the same, and what they can observe. -/
structure AgreeE (g g' : Glue) (m : MeaningE D W E S O) (m' : MeaningE D W' E S' O) (w : W) (w' : W') (ops : List (Op D W E S)) (ops' : List (Op D W' E S')) : Prop where
  obs : (run g (State.init w) ops).1 = (run g' (State.init w') ops').1
  world : m.obs (after g w ops).env.w = m'.obs (after g' w' ops').env.w

theorem AgreeE.snoc {g g' : Glue} {m : MeaningE D W E S O} {m' : MeaningE D W' E S' O} {w : W} {w' : W'} {l : List (Op D W E S)} {l' : List (Op D W' E S')}
    (h : AgreeE g g' m m' w w' l l') {op : Op D W E S} {op' : Op D W' E S'} (h1 : (step g (after g w l) op).1 = (step g' (after g' w' l') op').1)
    (h2 : m.obs (step g (after g w l) op).2.env.w = m'.obs (step g' (after g' w' l') op').2.env.w) : AgreeE g g' m m' w w' (l ++ [op]) (l' ++ [op']) := by
  refine ⟨?_, ?_⟩
  · rw [run_snoc, run_snoc]
    simp only [h.obs, h1]
  · simp only [after, run_snoc]; exact h2

/-- One operation in both programs. -/
theorem agreeE (hs : SoundNe D) (g g' : Glue) {m : MeaningE D W E S O} {m' : MeaningE D W' E S' O} {w : W} {w' : W'}
    (hw : m.obs w = m'.obs w') {ops : List (Op D W E S)} {ops' : List (Op D W' E S')} (h : AlongsideE m m' ops ops') (hok : ∀ t ∈ runTrees [] ops, TreeOkE g m t)
    (hok' : ∀ t ∈ runTrees [] ops', TreeOkE g' m' t) (hu : Untroubled g w ops) (hu' : Untroubled g' w' ops') : AgreeE g g' m m' w w' ops ops' := by
  induction h with
  | nil => exact ⟨rfl, hw⟩
  | @mk l l' f f' ds ds' ha hd ih =>
    have ih := ih (fun t ht => hok t (mem_snoc _ _ t ht)) (fun t ht => hok' t (mem_snoc _ _ t ht)) (untroubled_init hu) (untroubled_init hu')
    have k1 := mk_tree (reach_inv g w l).shape (reach_inv g w l).lz f ds
    have k2 := mk_tree (reach_inv g' w' l').shape (reach_inv g' w' l').lz f' ds'
    rcases hx : argTrees (runTrees [] l) ds with _ | us <;> rcases hx' : argTrees (runTrees [] l') ds' with _ | us' <;> rw [hx, hx'] at hd
    · refine ih.snoc ?_ ?_ <;> simp only [step, k1.2 hx, k2.2 hx', ih.world]
    · exact hd.elim
    · exact hd.elim
    · obtain ⟨os, hos, _⟩ := k1.1 us hx
      obtain ⟨os', hos', _⟩ := k2.1 us' hx'
      refine ih.snoc ?_ ?_ <;> simp only [step, hos, hos', ih.world]
  | @copy l l' i ha ih =>
    have ih := ih (fun t ht => hok t (mem_snoc _ _ t ht)) (fun t ht => hok' t (mem_snoc _ _ t ht)) (untroubled_init hu) (untroubled_init hu')
    have hl : (after g w l).vars.length = (after g' w' l').vars.length := by
      rw [← (reach_inv g w l).shape.length, ← (reach_inv g' w' l').shape.length, (trees_sameE ha).1]
    rcases hx : (after g w l).vars[i]? with _ | o <;> rcases hx' : (after g' w' l').vars[i]? with _ | o'
    · refine ih.snoc ?_ ?_ <;> simp only [step, hx, hx', ih.world]
    · rw [List.getElem?_eq_none_iff, hl, ← List.getElem?_eq_none_iff, hx'] at hx
      cases hx
    · rw [List.getElem?_eq_none_iff, ← hl, ← List.getElem?_eq_none_iff, hx] at hx'
      cases hx'
    · refine ih.snoc ?_ ?_ <;> simp only [step, hx, hx', ih.world]
  | @call l l' i ha ih =>
    rw [runTrees_snoc] at hok hok'
    have ih := ih hok hok' (untroubled_init hu) (untroubled_init hu')
    have ht := trees_sameE ha
    have hv : ∀ (j : Nat), (after g w l).vars[j]? = none ↔ (runTrees [] l)[j]? = none := by
      intro j; rw [List.getElem?_eq_none_iff, List.getElem?_eq_none_iff, (reach_inv g w l).shape.length]
    have hv' : ∀ (j : Nat), (after g' w' l').vars[j]? = none ↔ (runTrees [] l')[j]? = none := by
      intro j; rw [List.getElem?_eq_none_iff, List.getElem?_eq_none_iff, (reach_inv g' w' l').shape.length]
    rcases hx : (runTrees [] l)[i]? with _ | t <;> rcases hx' : (runTrees [] l')[i]? with _ | t'
    · refine ih.snoc ?_ ?_ <;> simp only [step, (hv i).2 hx, (hv' i).2 hx', ih.world]
    · rw [List.getElem?_eq_none_iff, ht.1, ← List.getElem?_eq_none_iff, hx'] at hx
      cases hx
    · rw [List.getElem?_eq_none_iff, ← ht.1, ← List.getElem?_eq_none_iff, hx] at hx'
      cases hx'
    · have e1 := reach_evalE hs g m w l hok i t hx (untroubled_call hu)
      have e2 := reach_evalE hs g' m' w' l' hok' i t' hx' (untroubled_call hu')
      simp only at e1 e2
      refine ih.snoc ?_ ?_
      · rw [e1.1, e2.1, ih.world, (ht.2 i t t' hx hx' _).2]
      · rw [e1.2, e2.2, ih.world]
  | poke h h' ha hh ih =>
    rw [runTrees_snoc] at hok hok'
    have ih := ih hok hok' (untroubled_init hu) (untroubled_init hu')
    refine ih.snoc ?_ ?_ <;> simp only [step]
    exact hh _ _ ih.world

end Pigro.Mng
