import Verif.Proofs.FinalDesignHistory
import Verif.Props.LazyD
/-!
# C70: the library against the design presented in the documentation
-/
namespace Pigro
open Demo
variable {D W E S O : Type} [CxxData D]

/-- The state of a program of the documented design. -/
abbrev fafter (w : W) (ops : List (Op D W E S)) : FState D W E S := (frun (FState.init w) ops).2

/-- **C70, freshness of the documented design**: in every history, every call returns the current value. (Lone tuples included, unlike in the library,
see `C70_lone_tuple`.) -/
theorem C70_fresh (hs : SoundNe D) (m : Meaning D W E S O) (w : W) (ops : List (Op D W E S)) (hok : ∀ t ∈ runTrees [] ops, m.Ok t ∧ t.NoVoid) (i : Nat)
    (t : Tree D W E S) (ht : (runTrees [] ops)[i]? = some t) :
    (fstep (fafter w ops) (.call i)).1 = .ret (.ok (some (m.eager (m.obs (fafter w ops).env.w) t))) := by
  obtain ⟨x, h1, h2⟩ := (frun_inv hs m ops (FInv.init m w) hok).good i t ht
  obtain ⟨ch, s', env', e1, _⟩ := evalF_ok hs m t x (fafter w ops).env (hok t (List.mem_of_getElem? ht)).1 h2
  simp only [fstep, h1, e1, Out.map]

/-- **C70** (for the design of lazy.h with its objects called in place). Every program has the same results in the library and in the documented design,
`x(nullptr)` with its `is_changed` included, and invokes the same wrapped functions in the same order with the same arguments.

Missing: functions returning nothing, which the documented design does not have; functions that throw or have effects that are observed, and lone
tuples: `C70_effects`, `C70_lone_tuple`. -/
theorem C70_same_partial (hs : SoundNe D) (hr : ReflNe D) (m : Meaning D W E S O) (w : W) (ops : List (Op D W E S)) (hop : ∀ op ∈ ops, op.Respects m)
    (hok : ∀ t ∈ runTrees [] ops, TreeOk .retained m t ∧ t.NoVoid) :
    (run .retained (State.init w) ops).1 = (frun (FState.init w) ops).1 ∧
    fnCalls (run .retained (State.init w) ops).2.env.log = fnCalls (frun (FState.init w) ops).2.env.log ∧
    m.obs (run .retained (State.init w) ops).2.env.w = m.obs (frun (FState.init w) ops).2.env.w := by
  obtain ⟨h1, h2⟩ := joint_run hs hr m ops (Joint.init m w) hop hok
  exact ⟨h1, h2.calls, h2.obs⟩

/-- **C70, how often plain functions are invoked**: a call after the last evaluation at `o1`, now at `o2`. The library invokes each plain function of the
tree once; the documented design as often as `Meaning.polls` says, which includes those invocations in their order. -/
theorem C70_polls (hs : SoundNe D) (hr : ReflNe D) (m : Meaning D W E S O) (w : W) (ops1 ops2 : List (Op D W E S)) (i : Nat) (t : Tree D W E S)
    (ht : (runTrees [] ops1)[i]? = some t) (hok : ∀ t ∈ runTrees [] (ops1 ++ .call i :: ops2), m.Ok t ∧ t.NoVoid)
    (hne : ∀ op ∈ ops2, op.evaluates i = false) :
    depCalls (fstep (fafter w (ops1 ++ .call i :: ops2)) (.call i)).2.env.log = depCalls (fafter w (ops1 ++ .call i :: ops2)).env.log ++
      m.polls (m.obs (fafter w ops1).env.w) (m.obs (fafter w (ops1 ++ .call i :: ops2)).env.w) t := by
  have htr : ∀ u ∈ runTrees [] ops1, m.Ok u ∧ u.NoVoid := fun u hu => hok u (by
    rw [runTrees_append]; exact (runTrees_prefix _ _).subset hu)
  have hokt := (htr t (List.mem_of_getElem? ht)).1
  obtain ⟨x, h1, h2⟩ := (frun_inv hs m ops1 (FInv.init m w) htr).good i t ht
  obtain ⟨ch, x', env', e1, _, _, e4, e5, _⟩ := evalF_ok hs m t x (fafter w ops1).env hokt h2
  have hstep : fstep (fafter w ops1) (.call i) =
      (.ret (.ok (some (m.eager (m.obs (fafter w ops1).env.w) t))), ⟨(fafter w ops1).vars.set i (t.fty, x'), env'⟩) := by
    simp only [fstep, h1, e1, Out.map]
  have hvar : (fafter w (ops1 ++ .call i :: ops2)).vars[i]? = some (t.fty, x') := by
    simp only [fafter, frun_append, frun]
    refine frun_frame i _ ops2 _ ?_ hne
    have : fstep (frun (FState.init w) ops1).2 (.call i) = fstep (fafter w ops1) (.call i) := rfl
    rw [this, hstep]
    exact set_get _ _ _ _ h1
  obtain ⟨ch2, x2, env2, f1, _, _, _, _, f6⟩ := evalF_ok hs m t x' (fafter w (ops1 ++ .call i :: ops2)).env hokt e4
  have hstep2 : (fstep (fafter w (ops1 ++ .call i :: ops2)) (.call i)).2.env = env2 := by
    simp only [fstep, hvar, f1]
  rw [hstep2]
  exact (f6 hr).2.2 _ e5

/-- The same with the observations named. -/
theorem polls_at (hs : SoundNe D) (hr : ReflNe D) (m : Meaning D W E S O) (w : W) (ops1 ops2 : List (Op D W E S)) (i : Nat) (t : Tree D W E S)
    (ht : (runTrees [] ops1)[i]? = some t) (hok : ∀ t ∈ runTrees [] (ops1 ++ .call i :: ops2), m.Ok t ∧ t.NoVoid)
    (hne : ∀ op ∈ ops2, op.evaluates i = false) (o1 o2 : O) (h1 : m.obs (fafter w ops1).env.w = o1)
    (h2 : m.obs (fafter w (ops1 ++ .call i :: ops2)).env.w = o2) (l : List Nat) (hl : m.polls o1 o2 t = l) :
    depCalls (fstep (fafter w (ops1 ++ .call i :: ops2)) (.call i)).2.env.log = depCalls (fafter w (ops1 ++ .call i :: ops2)).env.log ++ l := by
  subst h1 h2 hl
  exact C70_polls hs hr m w ops1 ops2 i t ht hok hne

/-! ### The number of invocations -/

omit [CxxData D] in
theorem flatten_sublist {f g : Tree D W E S → List Nat} : ∀ ts : List (Tree D W E S), (∀ t ∈ ts, (f t).Sublist (g t)) →
    (ts.map f).flatten.Sublist (ts.map g).flatten
  | [], _ => by simp
  | t :: ts, h => by
    simpa using (h t (by simp)).append (flatten_sublist ts (fun u hu => h u (by simp [hu])))

omit [CxxData D] in
theorem flatten_count {f g : Tree D W E S → List Nat} (a k : Nat) : ∀ ts : List (Tree D W E S), (∀ t ∈ ts, (g t).count a ≤ k * (f t).count a) →
    (ts.map g).flatten.count a ≤ k * (ts.map f).flatten.count a
  | [], _ => by simp
  | t :: ts, h => by
    have h1 := h t (by simp)
    have h2 := flatten_count a k ts (fun u hu => h u (by simp [hu]))
    simp only [List.map_cons, List.flatten_cons, List.count_append, Nat.mul_add]
    omega

omit [CxxData D] in
theorem depth_lt (c : FnCode D W E S) (ts : List (Tree D W E S)) : ∀ t ∈ ts, t.depth + 1 ≤ (Tree.lazy c ts).depth := by
  intro t ht
  have : t.depth ≤ (ts.map Tree.depth).foldr max 0 := by
    clear c
    induction ts with
    | nil => cases ht
    | cons u us ih =>
      simp only [List.map_cons, List.foldr_cons]
      rcases List.mem_cons.1 ht with rfl | h
      · exact Nat.le_max_left _ _
      · exact Nat.le_trans (ih h) (Nat.le_max_right _ _)
  rw [Tree.depth]
  omega

/-- **C70**: the documented design makes the invocations of the library, and repetitions of them; at most one repetition per level of the tree. -/
theorem C70_at_least (m : Meaning D W E S O) (o1 o2 : O) : ∀ t : Tree D W E S, t.leafIds.Sublist (m.polls o1 o2 t)
  | .value v => by simp [Tree.leafIds]
  | .function c => by simp [Tree.leafIds, Meaning.polls]
  | .lazy c ts => by
    have ih : ∀ t ∈ ts, t.leafIds.Sublist (m.polls o1 o2 t) := fun t _ => C70_at_least m o1 o2 t
    rw [polls_lazy, Tree.leafIds]
    split
    · generalize (askedUntil (changedF m o1 o2) ts).length = n
      refine List.Sublist.trans ?_ (List.sublist_append_right _ _)
      rw [← List.map_drop]
      conv => lhs; rw [← List.take_append_drop n ts, List.map_append, List.flatten_append]
      exact (List.Sublist.refl _).append (flatten_sublist _ (fun t ht => ih t (List.mem_of_mem_drop ht)))
    · exact flatten_sublist _ ih

theorem C70_at_most (m : Meaning D W E S O) (o1 o2 : O) (a : Nat) : ∀ t : Tree D W E S, (m.polls o1 o2 t).count a ≤ (t.depth + 1) * t.leafIds.count a
  | .value v => by simp [Meaning.polls]
  | .function c => by simp [Meaning.polls, Tree.leafIds, Tree.depth]
  | .lazy c ts => by
    have ih : ∀ t ∈ ts, (m.polls o1 o2 t).count a ≤ (Tree.lazy c ts).depth * t.leafIds.count a := fun t ht =>
      Nat.le_trans (C70_at_most m o1 o2 a t) (Nat.mul_le_mul_right _ (depth_lt c ts t ht))
    rw [polls_lazy, Tree.leafIds]
    generalize (Tree.lazy c ts).depth = k at ih
    split
    · generalize (askedUntil (changedF m o1 o2) ts).length = n
      rw [← List.map_drop, ← List.map_take]
      have h1 := flatten_count a k (ts.take n) (fun t ht => ih t (List.mem_of_mem_take ht))
      have h2 := flatten_count a k (ts.drop n) (fun t ht => ih t (List.mem_of_mem_drop ht))
      have h3 : (ts.map Tree.leafIds).flatten.count a = ((ts.take n).map Tree.leafIds).flatten.count a + ((ts.drop n).map Tree.leafIds).flatten.count a := by
        conv => lhs; rw [← List.take_append_drop n ts, List.map_append, List.flatten_append, List.count_append]
      simp only [List.count_append, h3, Nat.add_mul, Nat.mul_add, Nat.one_mul]
      omega
    · have h1 := flatten_count a k ts ih
      simp only [Nat.add_mul]
      omega

/-- **C70**: the bound is reached. If everything has changed, in a chain of `n` lazy functions the plain function at its end is invoked `n + 1` times in
the documented design (and once in the library). -/
theorem C70_chain (m : Meaning D W E S O) (o1 o2 : O) (c leaf : FnCode D W E S) : ∀ n, (∀ k < n, Val.ne (m.eager o2 (Tree.chain c leaf k))
    (m.eager o1 (Tree.chain c leaf k)) = true) → m.polls o1 o2 (Tree.chain c leaf n) = List.replicate (n + 1) leaf.id ∧
      (Tree.chain c leaf n).leafIds = [leaf.id] ∧ (Tree.chain c leaf n).depth = n
  | 0, _ => by simp [Tree.chain, Meaning.polls, Tree.leafIds, Tree.depth]
  | n + 1, h => by
    obtain ⟨h1, h2, h3⟩ := C70_chain m o1 o2 c leaf n (fun k hk => h k (by omega))
    have hch : changedF m o1 o2 (Tree.chain c leaf n) = true := h n (by omega)
    refine ⟨?_, by simp [Tree.chain, Tree.leafIds, h2], by simp [Tree.chain, Tree.depth, h3]⟩
    rw [Tree.chain, polls_lazy]
    simp only [List.any_cons, hch, Bool.true_or, if_true, askedUntil, List.length_singleton, List.map_cons, List.map_nil, List.take_succ_cons, List.take_zero,
      List.drop_succ_cons, List.drop_nil, List.flatten_cons, List.flatten_nil, List.append_nil, h1, h2]
    rw [List.replicate_succ' (n := n + 1)]

/-- Sums of one number: the value is the world, at every level. -/
theorem Demo.chain_eager (w : Int) : ∀ n, canon.eager w (Tree.chain sum.toFnCode rd.toFnCode n) = .data w
  | 0 => by simp [Tree.chain, Meaning.eager, canon, rd, RetTy.regularize]
  | n + 1 => by
    rw [Tree.chain, Meaning.eager]
    simp only [List.map_cons, List.map_nil, Demo.chain_eager w n]
    simp [canon, sum, RetTy.regularize, toInt]

/-- Every length of the chain meets the hypothesis. -/
example (n : Nat) : canon.polls 5 6 (Tree.chain sum.toFnCode rd.toFnCode n) = List.replicate (n + 1) 1 :=
  (C70_chain canon 5 6 sum.toFnCode rd.toFnCode n (by intro k _; rw [Demo.chain_eager, Demo.chain_eager]; rfl)).1

/-- Three levels and a dependency that does not change. -/
def Demo.tower : List (Op Int Int Nat Nat) := [.mk sum [.function rd], .mk sum [.function half, .var 0], .mk sum [.var 1, .value (.data 1)]]

def Demo.towerT : List T := [.lazy sum.toFnCode [.function rd.toFnCode],
  .lazy sum.toFnCode [.function half.toFnCode, .lazy sum.toFnCode [.function rd.toFnCode]],
  .lazy sum.toFnCode [.lazy sum.toFnCode [.function half.toFnCode, .lazy sum.toFnCode [.function rd.toFnCode]], .value (.data 1)]]

theorem Demo.tower_ok : ∀ t ∈ Demo.towerT, TreeOk .retained canon t ∧ t.NoVoid := by
  have h1 : canon.Ok (.lazy sum.toFnCode [.function rd.toFnCode] : T) := .lazy _ _ sum_ok (by intro t ht; simp at ht; subst ht; exact .function _ rd_ok)
  have h2 : canon.Ok (.lazy sum.toFnCode [.function half.toFnCode, .lazy sum.toFnCode [.function rd.toFnCode]] : T) := .lazy _ _ sum_ok (by
    intro t ht; simp at ht; rcases ht with rfl | rfl <;> first | exact .function _ half_ok | exact h1)
  have h3 : canon.Ok (.lazy sum.toFnCode [.lazy sum.toFnCode [.function half.toFnCode, .lazy sum.toFnCode [.function rd.toFnCode]], .value (.data 1)] : T) :=
    .lazy _ _ sum_ok (by intro t ht; simp at ht; rcases ht with rfl | rfl <;> first | exact h2 | exact .value _)
  have n1 : canon.NoLone (.lazy sum.toFnCode [.function rd.toFnCode] : T) := .lazy _ _
    (by intro t ht o vs; simp at ht; subst ht; exact not_tup _ (by intro o vs h; cases h) o vs) (by intro t ht; simp at ht; subst ht; exact .function _)
  have n2 : canon.NoLone (.lazy sum.toFnCode [.function half.toFnCode, .lazy sum.toFnCode [.function rd.toFnCode]] : T) := .lazy _ _
    (by intro t ht; simp at ht) (by intro t ht; simp at ht; rcases ht with rfl | rfl <;> first | exact .function _ | exact n1)
  have n3 : canon.NoLone (.lazy sum.toFnCode [.lazy sum.toFnCode [.function half.toFnCode, .lazy sum.toFnCode [.function rd.toFnCode]], .value (.data 1)] : T) :=
    .lazy _ _ (by intro t ht; simp at ht) (by intro t ht; simp at ht; rcases ht with rfl | rfl <;> first | exact n2 | exact .value _)
  have v1 : (.lazy sum.toFnCode [.function rd.toFnCode] : T).NoVoid := .lazy _ _ rfl (by intro t ht; simp at ht; subst ht; exact .function _ rfl)
  have v2 : (.lazy sum.toFnCode [.function half.toFnCode, .lazy sum.toFnCode [.function rd.toFnCode]] : T).NoVoid := .lazy _ _ rfl (by
    intro t ht; simp at ht; rcases ht with rfl | rfl <;> first | exact .function _ rfl | exact v1)
  have v3 : (.lazy sum.toFnCode [.lazy sum.toFnCode [.function half.toFnCode, .lazy sum.toFnCode [.function rd.toFnCode]], .value (.data 1)] : T).NoVoid :=
    .lazy _ _ rfl (by intro t ht; simp at ht; rcases ht with rfl | rfl <;> first | exact v2 | exact .value _)
  intro t ht
  simp only [Demo.towerT, List.mem_cons, List.not_mem_nil, or_false] at ht
  rcases ht with rfl | rfl | rfl
  · exact ⟨⟨h1, n1, .inl rfl⟩, v1⟩
  · exact ⟨⟨h2, n2, .inl rfl⟩, v2⟩
  · exact ⟨⟨h3, n3, .inl rfl⟩, v3⟩

/-- A program with calls, polls, copies and changes. -/
def Demo.towerUse : List (Op Int Int Nat Nat) := [.call 2, .poke (· + 1), .poll 2, .copy 2, .poke (· + 1), .call 0, .call 3]

theorem Demo.towerUse_trees : runTrees [] (tower ++ towerUse) = towerT ++ [.lazy sum.toFnCode
  [.lazy sum.toFnCode [.function half.toFnCode, .lazy sum.toFnCode [.function rd.toFnCode]], .value (.data 1)]] := rfl

theorem Demo.towerUse_ok : ∀ t ∈ runTrees [] (tower ++ towerUse), TreeOk .retained canon t ∧ t.NoVoid := by
  intro t ht
  rw [towerUse_trees] at ht
  rcases List.mem_append.1 ht with h | h
  · exact tower_ok t h
  · simp only [List.mem_singleton] at h
    subst h
    exact tower_ok _ (by simp [towerT])

theorem Demo.towerUse_respects : ∀ op ∈ tower ++ towerUse, op.Respects canon := by
  intro op hop
  simp only [tower, towerUse, List.cons_append, List.nil_append, List.mem_cons, List.not_mem_nil, or_false] at hop
  rcases hop with rfl | rfl | rfl | rfl | rfl | rfl | rfl | rfl | rfl | rfl <;> simp [Op.Respects, canon]

example : (frun (FState.init 4) (tower ++ towerUse) : _ × FState Int Int Nat Nat).1 = [.unit, .unit, .unit, .ret (.ok (some (.data 7))), .unit,
    .polled (.ok ⟨.data 8, true, true⟩), .unit, .unit, .ret (.ok (some (.data 6))), .ret (.ok (some (.data 10)))] :=
  (C70_same_partial soundNe reflNe canon 4 _ towerUse_respects towerUse_ok).1.symm

/-- One more call, in world 6. -/
example : (fstep (fafter 4 (tower ++ towerUse)) (.call 2)).1 = .ret (.ok (some (.data 10))) := by
  rw [C70_fresh soundNe canon 4 (tower ++ towerUse) (fun t ht => ⟨(towerUse_ok t ht).1.1, (towerUse_ok t ht).2⟩) 2 _ rfl]
  have hw : canon.obs (fafter 4 (tower ++ towerUse) : FState Int Int Nat Nat).env.w = 6 := by
    rw [← (C70_same_partial soundNe reflNe canon 4 _ towerUse_respects towerUse_ok).2.2]
    rfl
  rw [hw]
  simp [Meaning.eager, canon, sum, rd, half, RetTy.regularize, toInt]

/-- The world changes by two. -/
def Demo.again : List (Op Int Int Nat Nat) := [.poke (· + 2)]

theorem Demo.again_ok : ∀ t ∈ runTrees [] (tower ++ Op.call 2 :: again), TreeOk .retained canon t ∧ t.NoVoid := tower_ok

theorem Demo.again_respects : ∀ op ∈ tower ++ Op.call 2 :: again, op.Respects canon := by
  intro op hop
  simp only [tower, again, List.cons_append, List.nil_append, List.mem_cons, List.not_mem_nil, or_false] at hop
  rcases hop with rfl | rfl | rfl | rfl | rfl <;> simp [Op.Respects, canon]

/-- A call in world 6 after one in world 4: `half` has changed (2, now 3), so the middle sum asks it for its change, and then both dependencies for their
values, of which the inner sum asks `rd` twice; the outer sum learns that the middle one has changed and asks again. The library asks each once. -/
example : depCalls (fstep (fafter 4 (tower ++ Op.call 2 :: again)) (.call 2)).2.env.log =
      depCalls (fafter 4 (tower ++ Op.call 2 :: again)).env.log ++ [2, 2, 1, 1, 2, 1] ∧
    depCalls (step .retained (after .retained 4 (tower ++ Op.call 2 :: again)) (.call 2)).2.env.log =
      depCalls (after .retained 4 (tower ++ Op.call 2 :: again)).env.log ++ [2, 1] := by
  refine ⟨?_, rfl⟩
  have hw := (C70_same_partial soundNe reflNe canon 4 _ again_respects again_ok).2.2
  have h6 : canon.obs (run .retained (State.init 4) (tower ++ Op.call 2 :: again)).2.env.w = 6 := rfl
  have hp : canon.polls 4 6 (.lazy sum.toFnCode [.lazy sum.toFnCode [.function half.toFnCode, .lazy sum.toFnCode [.function rd.toFnCode]], .value (.data 1)]) =
      [2, 2, 1, 1, 2, 1] := by
    simp [Meaning.polls, Meaning.eager, askedUntil, Tree.leafIds, canon, sum, rd, half, RetTy.regularize, toInt, Val.ne, CxxData.ne]
  have hg : canon.obs (fafter 4 (tower ++ Op.call 2 :: again)).env.w = 6 := by
    rw [← hw]
    exact h6
  have hn : ∀ op ∈ again, op.evaluates 2 = false := by simp [again, Op.evaluates]
  have h := polls_at soundNe reflNe canon 4 tower again 2 _ rfl (fun t ht => ⟨(again_ok t ht).1.1, (again_ok t ht).2⟩) hn 4 6 rfl hg _ hp
  exact h

/-- **C70 is false for a lone tuple**: the library unpacks it. -/
theorem C70_lone_tuple : let l : List P := [.mk count [.value (.tup [.data 1, .data 2])], .call 0]
    (run .retained (State.init 0) l : _ × State Int Int Nat Nat).1 = [.unit, .ret (.ok (some (.data 2)))] ∧
    (frun (FState.init 0) l : _ × FState Int Int Nat Nat).1 = [.unit, .ret (.ok (some (.data 1)))] := ⟨rfl, rfl⟩

/-- **C70 is false for functions with effects**: a plain function that counts its invocations, and one that changes what it reads. The documented
design asks it whether it has changed and uses a later answer. -/
theorem C70_effects : let l (f : F) : List P := [.mk sum [.function f], .call 0, .call 0]
    (run .retained (State.init 0) (l tick) : _ × State Int Int Nat Nat).1 = [.unit, .ret (.ok (some (.data 0))), .ret (.ok (some (.data 1)))] ∧
    (frun (FState.init 0) (l tick) : _ × FState Int Int Nat Nat).1 = [.unit, .ret (.ok (some (.data 0))), .ret (.ok (some (.data 2)))] ∧
    (run .retained (State.init 0) (l inc) : _ × State Int Int Nat Nat).1 = [.unit, .ret (.ok (some (.data 0))), .ret (.ok (some (.data 1)))] ∧
    (frun (FState.init 0) (l inc) : _ × FState Int Int Nat Nat).1 = [.unit, .ret (.ok (some (.data 0))), .ret (.ok (some (.data 2)))] := ⟨rfl, rfl, rfl, rfl⟩

end Pigro
