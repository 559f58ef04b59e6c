import Verif.Proofs.CallCost
import Verif.Props.LazyD
import Verif.Props.LazyB
import Verif.Props.MakeCopies
/-!
# C93: how many functions a call runs; shared dependencies once more (C56)
-/
namespace Pigro
open Demo
variable {D W E S O : Type} [CxxData D]

/-- **C93**, any glue (so also the pinned code), any reachable state, arbitrary functions: a call runs a plain function at most once for every path to it in the program, and exactly that often
if it returns; it runs at most as many functions altogether as there are paths to functions; and it compares at most as often as it runs a function. -/
theorem C93_call (g : Glue) (w : W) (ops : List (Op D W E S)) (i : Nat) (n : Nat × Nat) (hn : (paths [] ops)[i]? = some n) :
    ∃ evs r, (step g (after g w ops) (.call i)).1 = .ret r ∧ (step g (after g w ops) (.call i)).2.env.log = (after g w ops).env.log ++ evs ∧
      (depCalls evs).length ≤ n.1 ∧ (r.isOk = true → (depCalls evs).length = n.1) ∧ (calls evs).length ≤ n.2 ∧ (cmps evs).length ≤ (calls evs).length := by
  have hp := paths_trees ops []
  rw [List.map_nil] at hp
  rw [hp, List.getElem?_map, Option.map_eq_some_iff] at hn
  obtain ⟨t, ht, rfl⟩ := hn
  obtain ⟨evs, r, h1, h2, h3, h4, h5⟩ := C07_deps_once_in_order g w ops i t ht
  obtain ⟨o, l, -, -, h6, h7⟩ := C10_comparisons g w ops i t ht (.call i) rfl
  rw [h2] at h6
  obtain rfl := List.append_cancel_left h6
  exact ⟨evs, r, h1, h2, h3.length_le, fun h => by rw [h4 h]; rfl, h5.length_le, nodeLog_cmps h7⟩

example : ∃ evs r, (step Glue.retained (after Glue.retained 5 diamond : State Int Int Nat Nat) (.call 3)).1 = .ret r ∧
    (step Glue.retained (after Glue.retained 5 diamond : State Int Int Nat Nat) (.call 3)).2.env.log = (after Glue.retained 5 diamond : State Int Int Nat Nat).env.log ++ evs ∧
      (depCalls evs).length ≤ 2 ∧ (r.isOk = true → (depCalls evs).length = 2) ∧ (calls evs).length ≤ 7 ∧ (cmps evs).length ≤ (calls evs).length :=
  C93_call Glue.retained 5 diamond 3 (2, 7) rfl

/-- **C93** (for glue that keeps everything): a call that finds nothing changed since the call before runs nothing but the plain functions, and compares nothing but their results: each once for
every path to it (`regular_void` is not compared). -/
theorem C93_unchanged_partial (hs : SoundNe D) (hr : ReflNe D) (g : Glue) (hg : g.Retains) (m : Meaning D W E S O) (w : W) (ops1 ops2 : List (Op D W E S)) (i : Nat) (n : Nat × Nat)
    (hn : (paths [] ops1)[i]? = some n) (hok : ∀ t ∈ runTrees [] ops1, TreeOk g m t) (hne : ∀ op ∈ ops2, ¬ op.evaluates i)
    (hsame : m.obs (after g w (ops1 ++ .call i :: ops2)).env.w = m.obs (after g w ops1).env.w) :
    ∃ evs, (step g (after g w (ops1 ++ .call i :: ops2)) (.call i)).2.env.log = (after g w (ops1 ++ .call i :: ops2)).env.log ++ evs ∧
      (calls evs).length = n.1 ∧ (depCalls evs).length = n.1 ∧ (cmps evs).length ≤ n.1 ∧ ((∀ t ∈ runTrees [] ops1, t.NoVoid) → (cmps evs).length = n.1) := by
  have hp := paths_trees ops1 []
  rw [List.map_nil] at hp
  rw [hp, List.getElem?_map, Option.map_eq_some_iff] at hn
  obtain ⟨t, ht, rfl⟩ := hn
  obtain ⟨h1, h2, h3⟩ := C05_exact_recalculation_partial hs hr g hg m w ops1 ops2 i t ht hok hne
  have ht2 : (runTrees [] (ops1 ++ .call i :: ops2))[i]? = some t := by
    have : ∀ (ops : List (Op D W E S)) (ts : List (Tree D W E S)), ts[i]? = some t → (runTrees ts ops)[i]? = some t := by
      intro ops
      induction ops with
      | nil => intro ts h; exact h
      | cons op ops ih =>
        intro ts h
        have hl := (List.getElem?_eq_some_iff.1 h).1
        refine ih _ ?_
        cases op with
        | mk f deps => simp only [stepTrees]; split <;> first | (rw [List.getElem?_append_left hl]; exact h) | exact h
        | copy j => simp only [stepTrees]; split <;> first | (rw [List.getElem?_append_left hl]; exact h) | exact h
        | call j => exact h
        | poll j => exact h
        | poke f => exact h
    have he : runTrees [] (ops1 ++ .call i :: ops2) = runTrees (runTrees [] ops1) (.call i :: ops2) := List.foldl_append ..
    rw [he]
    exact this _ _ ht
  obtain ⟨evs, r, h4, h5, -, h6, -⟩ := C07_deps_once_in_order g w _ i t ht2
  rw [h4, Obs.ret.injEq] at h1
  subst h1
  refine ⟨evs, h5, ?_⟩
  have e1 : fnCalls (after g w (ops1 ++ .call i :: ops2)).env.log ++ fnCalls evs = fnCalls (after g w (ops1 ++ .call i :: ops2)).env.log ++ [] := by
    rw [← fnCalls_append, ← h5, h2, hsame, recalc_same hr]
  have e2 : cmps (after g w (ops1 ++ .call i :: ops2)).env.log ++ cmps evs =
      cmps (after g w (ops1 ++ .call i :: ops2)).env.log ++ m.recmp (m.obs (after g w ops1).env.w) (m.obs (after g w ops1).env.w) t := by
    rw [← cmps_append, ← h5, h3, hsame]
  have e1 := List.append_cancel_left e1
  have e2 := List.append_cancel_left e2
  have e3 : ∀ evs : List (Ev D S), fnCalls evs = [] → calls evs = depCalls evs := by
    intro evs
    induction evs with
    | nil => intro _; rfl
    | cons e evs ih =>
      rcases e with ⟨_ | _, id, args, a, b⟩ | ⟨a, b⟩
      all_goals first | (intro h; simp [fnCalls] at h; simp [calls, depCalls, ih h]; done) | (intro h; simp [fnCalls] at h)
  have hd : depCalls evs = t.leafIds := h6 rfl
  obtain ⟨h7, h8⟩ := recmp_same hr m (m.obs (after g w ops1).env.w) t
  refine ⟨by rw [e3 evs e1, hd]; rfl, by rw [hd]; rfl, by rw [e2]; exact h7, fun h => by rw [e2]; exact h8 (h t (List.mem_of_getElem? ht))⟩

/-! ### The number of paths -/

/-- The trees of `LM.doubling`. -/
def doubled : Nat → T
  | 0 => .lazy sum.toFnCode [.function rd.toFnCode]
  | n + 1 => .lazy sum.toFnCode [doubled n, doubled n]

theorem doubling_trees (n : Nat) : runTrees [] (LM.makes (LM.doubling n)) = (List.range (n + 1)).map doubled := by
  have key : ∀ n k : Nat, runTrees ((List.range (k + 1)).map doubled) ((LM.makes ((List.range' k n).map fun k => (sum, [.var k, .var k]))) : List P) = (List.range (k + n + 1)).map doubled := by
    intro n
    induction n with
    | zero => intro k; rfl
    | succ n ih =>
      intro k
      have := ih (k + 1)
      rw [List.range'_succ, List.map_cons]
      have e : stepTrees ((List.range (k + 1)).map doubled) (.mk sum [.var k, .var k] : P) = (List.range (k + 1 + 1)).map doubled := by
        rw [List.range_succ (n := k + 1), List.map_append]
        simp [stepTrees, argTrees, ArgRef.tree, doubled]
      show runTrees (stepTrees _ (.mk sum [.var k, .var k] : P)) _ = _
      rw [e]
      show runTrees _ (LM.makes _) = _
      rw [this]
      congr 2
      omega
  have h := key n 0
  rw [Nat.zero_add n] at h
  rw [← h]
  rfl

theorem doubled_ok (g : Glue) (hr : g.resultByRef = false) (n : Nat) : TreeOk g canon (doubled n) := by
  induction n with
  | zero =>
    refine ⟨.lazy _ _ sum_ok ?_, .lazy _ _ ?_ ?_, .inl hr⟩
    · intro t ht; simp at ht; subst ht; exact .function _ rd_ok
    · intro t ht o vs
      simp at ht; subst ht
      exact not_tup _ (by intro o vs h; cases h) o vs
    · intro t ht; simp at ht; subst ht; exact .function _
  | succ n ih =>
    refine ⟨.lazy _ _ sum_ok ?_, .lazy _ _ ?_ ?_, .inl hr⟩
    · intro t ht; simp at ht; subst ht; exact ih.1
    · intro t ht; simp at ht
    · intro t ht; simp at ht; subst ht; exact ih.2.1

theorem doubling_paths (n : Nat) : (paths [] (LM.makes (LM.doubling n)))[n]? = some (2 ^ n, 3 * 2 ^ n - 1) := by
  have hp := paths_trees (LM.makes (LM.doubling n)) []
  rw [List.map_nil] at hp
  have hd : ∀ n, (doubled n).numbers = (2 ^ n, 3 * 2 ^ n - 1) := by
    intro n
    induction n with
    | zero => simp [doubled, Tree.numbers, Tree.leafIds, Tree.postIds]
    | succ n ih =>
      rw [doubled, Tree.numbers_lazy]
      have : 2 ^ (n + 1) = 2 ^ n * 2 := Nat.pow_succ ..
      have hpos : 0 < 2 ^ n := Nat.two_pow_pos n
      simp [ih]
      omega
  rw [hp, doubling_trees, List.getElem?_map, List.getElem?_map, List.getElem?_range (by omega)]
  simp [hd]

/-- **C93**: so the number of invocations is exponential in the number of lazy functions, if every one is the dependency of the next twice: a call of the last of `n + 1` runs the one plain function
there is `2 ^ n` times - the first call, and also the next, which finds nothing changed. (Results that do not dangle; glue that keeps everything.) -/
theorem C93_doubling_partial (g : Glue) (hr : g.resultByRef = false) (hg : g.Retains) (w : Int) (n : Nat) :
    ∃ evs evs', (step g (after g w (LM.makes (LM.doubling n))) (.call n)).2.env.log = evs ∧ (depCalls evs).length = 2 ^ n ∧
      (step g (after g w (LM.makes (LM.doubling n) ++ [.call n])) (.call n)).2.env.log = (after g w (LM.makes (LM.doubling n) ++ [.call n])).env.log ++ evs' ∧
      (calls evs').length = 2 ^ n ∧ (depCalls evs').length = 2 ^ n ∧ (cmps evs').length = 2 ^ n := by
  have ht : (runTrees [] (LM.makes (LM.doubling n)))[n]? = some (doubled n) := by
    rw [doubling_trees, List.getElem?_map, List.getElem?_range (by omega)]
    rfl
  have hok : ∀ t ∈ runTrees [] (LM.makes (LM.doubling n)), TreeOk g canon t := by
    intro t h
    rw [doubling_trees, List.mem_map] at h
    obtain ⟨k, -, rfl⟩ := h
    exact doubled_ok g hr k
  have hv : ∀ n, (doubled n).NoVoid := by
    intro n
    induction n with
    | zero => exact .lazy _ _ rfl (by intro t ht; simp at ht; subst ht; exact .function _ rfl)
    | succ n ih => exact .lazy _ _ rfl (by intro t ht; simp at ht; subst ht; exact ih)
  have f1 := C04_fresh_partial soundNe g (.inl hg) canon w _ hok n _ ht
  have hlog := congrArg Env.log (C01_construction_evaluates_nothing g w (LM.makes (LM.doubling n)) (by
    intro op ho i
    simp only [LM.makes, List.mem_map] at ho
    obtain ⟨p, -, rfl⟩ := ho
    exact id))
  obtain ⟨evs, r, h1, h2, -, h3, -⟩ := C93_call g w _ n _ (doubling_paths n)
  rw [f1, Obs.ret.injEq] at h1
  subst h1
  have hq : (after g w (LM.makes (LM.doubling n) ++ [.call n])).env.w = (after g w (LM.makes (LM.doubling n))).env.w := by
    obtain ⟨o, c, us, ho, he, hsh⟩ := vars_of_tree g w _ n _ ht
    obtain ⟨r2, o2, env2, he2, -, -, -, h5, -⟩ := evalN_stepOk soundNe g canon _ o (after g w (LM.makes (LM.doubling n))).env hsh
      (doubled_ok g hr n).1 (doubled_ok g hr n).2.1 (doubled_ok g hr n).2.2 (reach_cons soundNe g (.inl hg) canon w _ hok n _ o ht ho)
    rw [he] at hsh
    have e : after g w (LM.makes (LM.doubling n) ++ [.call n]) = (step g (after g w (LM.makes (LM.doubling n))) (.call n)).2 := by
      simp only [after]
      rw [run_append]
      rfl
    rw [e, step_call g _ n o ho]
    simp only
    rw [call0_obj g c us o _ hsh, he2]
    exact h5
  obtain ⟨evs', k1, k2, k3, -, k4⟩ := C93_unchanged_partial soundNe reflNe g hg canon w (LM.makes (LM.doubling n)) [] n _ (doubling_paths n) hok (by simp) hq
  refine ⟨evs, evs', ?_, h3 rfl, k1, k2, k3, k4 ?_⟩
  · rw [h2, hlog]
    rfl
  · intro t h
    rw [doubling_trees, List.mem_map] at h
    obtain ⟨k, -, rfl⟩ := h
    exact hv k

-- eleven lazy functions, twelve functions
example : ∃ evs evs', (step Glue.retained (after Glue.retained 5 (LM.makes (LM.doubling 10))) (.call 10)).2.env.log = evs ∧ (depCalls evs).length = 1024 ∧
      (step Glue.retained (after Glue.retained 5 (LM.makes (LM.doubling 10) ++ [.call 10])) (.call 10)).2.env.log =
        (after Glue.retained 5 (LM.makes (LM.doubling 10) ++ [.call 10])).env.log ++ evs' ∧
      (calls evs').length = 1024 ∧ (depCalls evs').length = 1024 ∧ (cmps evs').length = 1024 :=
  C93_doubling_partial Glue.retained rfl ⟨rfl, rfl, rfl, rfl⟩ 5 10

/-- **C93**, as one would like it, is false, for every glue that caches and does not dangle: there is no constant such that a call runs at most that many functions for each operation of the program,
even if nothing has changed. -/
theorem C93_not_linear (g : Glue) (hr : g.resultByRef = false) (hg : g.Retains) : ¬ ∃ K : Nat, ∀ (w : Int) (ops : List P) (i : Nat) (evs : List (Ev Int Nat)),
    (step g (after g w ops) (.call i)).2.env.log = (after g w ops).env.log ++ evs → (calls evs).length ≤ K * ops.length := by
  rintro ⟨K, h⟩
  obtain ⟨-, evs, -, -, h1, h2, -⟩ := C93_doubling_partial g hr hg 5 (3 * (K + 2))
  have h3 := h _ _ _ _ h1
  rw [h2] at h3
  have h4 : (LM.makes (LM.doubling (3 * (K + 2))) ++ [.call (3 * (K + 2))] : List P).length = 3 * K + 8 := by
    simp [LM.makes, LM.doubling]
    omega
  rw [h4] at h3
  have h5 : K + 3 ≤ 2 ^ (K + 2) := Nat.lt_two_pow_self
  have h6 : 2 ^ (3 * (K + 2)) = 2 ^ (K + 2) * (2 ^ (K + 2) * 2 ^ (K + 2)) := by
    rw [← Nat.pow_add, ← Nat.pow_add]
    congr 1
    omega
  have h7 := Nat.mul_le_mul h5 (Nat.mul_le_mul h5 h5)
  rw [← h6] at h7
  have h8 : K * (3 * K + 8) < (K + 3) * (3 * (K + 3)) := Nat.mul_lt_mul'' (by omega) (by omega)
  have h9 : (K + 3) * (3 * (K + 3)) ≤ (K + 3) * ((K + 3) * (K + 3)) := Nat.mul_le_mul_left _ (Nat.mul_le_mul_right _ (by omega))
  omega

/-! ### C56: a shared dependency may have two values in one call -/

/-- The difference of two numbers. -/
def Demo.diff : F := ⟨⟨21, .val, fun s vs w => (.ok (.data (match vs.map toInt with | [a, b] => a - b | _ => 0)), s + 1, w)⟩, 0⟩

/-- **C56**: with a function that changes what it reads (`inc`), the dependencies of a function may see different values of the lazy function they share: `x = lazy(sum, inc); d = lazy(diff, x, x)`
returns -1, in every world, although the difference of any value from itself is 0. (Any glue without dangling.) -/
theorem C56_two_values (g : Glue) (hr : g.resultByRef = false) (w : Int) :
    (step g (after g w [.mk sum [.function inc], .mk diff [.var 0, .var 0]] : State Int Int Nat Nat) (.call 1)).1 = .ret (.ok (some (.data (-1)))) ∧
      ∀ v s w', (diff.run s [.data v, .data v] w').1 = .ok (.data 0) := by
  refine ⟨?_, ?_⟩
  · obtain ⟨a, b, c, d, e1, e2, e3, e4⟩ := g
    simp only at hr
    subst hr
    have h : ∀ x : Int, 0 + w - (0 + (w + 1)) = x → x = -1 := by omega
    rw [← h _ rfl]
    cases a <;> cases b <;> cases c <;> cases d <;> cases e1 <;> cases e2 <;> cases e3 <;> rfl
  · intro v s w'
    simp [diff, toInt]

end Pigro
