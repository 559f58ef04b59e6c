import Verif.Proofs.CallCopies
import Verif.Props.LazyMem
import Verif.Props.FinalDesign
import Verif.Spec.Replay
/-!
# C89: what a call of a lazy function copies

Client programs at memory level (`runM`, `stepM`, see Props/LazyMem.lean): every copy and move construction is recorded, with the object it makes. `Handled cf cv m m' n`: what was made between
`m` and `m'` contains functions and values of the user, weighed `cf` and `cv`, adding up to `n`; `cf = 1`, `cv = 0` counts functions only. `Tree.handled` is the number expected from the tree the
lazy function was made from. `byRef = true` is the pinned code, `byRef = false` the same code without the deduction guide lazy.h:23-24.
-/
namespace Pigro.LM
open Cxx Demo
variable {D W E S O : Type} [CxxData D] {cf cv : Nat}

omit [CxxData D] in
/-- The number is determined by the two memories. -/
theorem Handled.unique {m m' : LMem D W E S} {n n' : Nat} (h : Handled cf cv m m' n) (h' : Handled cf cv m m' n') : n = n' := by
  obtain ⟨new, h1, h2⟩ := h
  obtain ⟨new', h3, h4⟩ := h'
  rw [h1, List.append_cancel_left_eq] at h3
  subst h3
  rw [← h2, h4]

/-- **C89**: in every history, a call of a lazy function, of the pinned code or without the deduction guide, makes at most as many functions and values of the user, by copying and moving, as
expected from its tree, and if it returns, exactly as many; so does asking it for its value and whether it has changed. Functions are counted for all trees; values for trees in which no lazy
function has exactly one dependency. -/
theorem C89_call (Θ : Empties D W E S) (moved : MV D W E S → MV D W E S) (hm : ∀ x, (moved x).content cf cv = x.content cf cv) (byRef : Bool) (w : W)
    (ops : List (Op D W E S)) (i : Nat) (t : Tree D W E S) (ht : (runTrees [] ops)[i]? = some t) (hs : cv = 0 ∨ t.NoSingle) :
    (∃ n, Handled cf cv (runM (lang Θ moved) byRef (MState.init w) ops).2.mem (stepM (lang Θ moved) byRef (runM (lang Θ moved) byRef (MState.init w) ops).2 (.call i)).2.mem n ∧
      n ≤ t.handled cf cv 0 ∧
      ∀ v, (stepM (lang Θ moved) byRef (runM (lang Θ moved) byRef (MState.init w) ops).2 (.call i)).1 = .ret (.ok v) → n = t.handled cf cv 0) ∧
    ∃ n, Handled cf cv (runM (lang Θ moved) byRef (MState.init w) ops).2.mem (stepM (lang Θ moved) byRef (runM (lang Θ moved) byRef (MState.init w) ops).2 (.poll i)).2.mem n ∧
      n ≤ t.handled cf cv 0 ∧
      ∀ r, (stepM (lang Θ moved) byRef (runM (lang Θ moved) byRef (MState.init w) ops).2 (.poll i)).1 = .polled (.ok r) → n = t.handled cf cv 0 :=
  op_cost Θ moved hm byRef w ops i t ht hs

/-- **C89**: without the deduction guide, for functions that do not throw, the second call of a lazy function copies as much as the first, and every call the number expected. -/
theorem C89_every_call (hsn : SoundNe D) (Θ : Empties D W E S) (moved : MV D W E S → MV D W E S) (hm : ∀ x, (moved x).content cf cv = x.content cf cv) (m : Meaning D W E S O) (w : W)
    (ops : List (Op D W E S)) (hok : ∀ t ∈ runTrees [] ops, TreeOk { Glue.asWritten with resultByRef := false } m t) (i : Nat) (t : Tree D W E S)
    (ht : (runTrees [] ops)[i]? = some t) (hs : cv = 0 ∨ t.NoSingle) :
    Handled cf cv (runM (lang Θ moved) false (MState.init w) ops).2.mem (stepM (lang Θ moved) false (runM (lang Θ moved) false (MState.init w) ops).2 (.call i)).2.mem (t.handled cf cv 0) := by
  obtain ⟨⟨n, h1, -, h2⟩, -⟩ := C89_call Θ moved hm false w ops i t ht hs
  rw [← h2 _ (C53_call_eager hsn Θ moved m w ops hok i t ht)]
  exact h1

/-- A program with functions of empty type, a constant, and lazy functions that share dependencies. -/
def copied : List P := [.mk plus [.function worldFn, .value (.data 7), .function rd], .mk plus [.var 0, .var 0]]

/-- The tree of the second. -/
def copiedT : T := .lazy plus.toFnCode [.lazy plus.toFnCode [.function worldFn.toFnCode, .value (.data 7), .function rd.toFnCode],
  .lazy plus.toFnCode [.function worldFn.toFnCode, .value (.data 7), .function rd.toFnCode]]

theorem copiedT_handled : copiedT.handled 1 0 0 = 63 ∧ copiedT.handled 0 1 0 = 74 := by
  simp [copiedT, Tree.handled]

example (moved : MV Int Int Nat Nat → MV Int Int Nat Nat) (hm : ∀ x, (moved x).content 1 0 = x.content 1 0) :
    ∃ n, Handled 1 0 (runM (lang empties moved) false (MState.init 5) copied).2.mem
      (stepM (lang empties moved) false (runM (lang empties moved) false (MState.init 5) copied).2 (.call 1)).2.mem n ∧ n = 63 := by
  obtain ⟨⟨n, h1, -, h3⟩, -⟩ := C89_call (cf := 1) (cv := 0) empties moved hm false 5 copied 1 copiedT rfl (.inl rfl)
  refine ⟨n, h1, (h3 (some (.data 34)) ?_).trans copiedT_handled.1⟩
  obtain ⟨-, h2⟩ := runM_spec empties moved false copied (MState.init 5) (State.init 5) (sim_init 5)
  rw [(stepM_spec empties moved false _ _ h2 (.call 1)).1]
  rfl

/-- The values, too. -/
example (moved : MV Int Int Nat Nat → MV Int Int Nat Nat) (hm : ∀ x, (moved x).content 0 1 = x.content 0 1) :
    ∃ n, Handled 0 1 (runM (lang empties moved) false (MState.init 5) copied).2.mem
      (stepM (lang empties moved) false (runM (lang empties moved) false (MState.init 5) copied).2 (.call 1)).2.mem n ∧ n = 74 := by
  have hn : (Tree.lazy plus.toFnCode [.function worldFn.toFnCode, .value (.data 7), .function rd.toFnCode] : T).NoSingle :=
    .lazy _ _ (by simp) (by
      intro t ht
      simp only [List.mem_cons, List.not_mem_nil, or_false] at ht
      rcases ht with rfl | rfl | rfl
      · exact .function _
      · exact .value _
      · exact .function _)
  obtain ⟨⟨n, h1, -, h3⟩, -⟩ := C89_call (cf := 0) (cv := 1) empties moved hm false 5 copied 1 copiedT rfl (.inr (.lazy _ _ (by simp) (by
    intro t ht
    simp only [List.mem_cons, List.not_mem_nil, or_false, or_self] at ht
    rw [ht]
    exact hn)))
  refine ⟨n, h1, (h3 (some (.data 34)) ?_).trans copiedT_handled.2⟩
  obtain ⟨-, h2⟩ := runM_spec empties moved false copied (MState.init 5) (State.init 5) (sim_init 5)
  rw [(stepM_spec empties moved false _ _ h2 (.call 1)).1]
  rfl

/-- What a moved-from object holds may be anything that still holds as many functions. -/
example : ∃ moved : MV Int Int Nat Nat → MV Int Int Nat Nat, (∀ x, (moved x).content 1 0 = x.content 1 0) ∧ ∃ x, moved x ≠ x := by
  refine ⟨fun | .user _ => .user rd | .val _ => .unit | x => x, ?_, .val .rvoid, by simp⟩
  intro x
  cases x <;> rfl

/-! ### How much that is -/

omit [CxxData D] in
/-- Every function of the tree is counted at least four times for each lazy function around `t` and twice more, and at most four times for each lazy function it can be in besides. -/
theorem handled_between : ∀ (t : Tree D W E S) (d : Nat), (4 * d + 2) * t.codes.length ≤ t.handled 1 0 d ∧ t.handled 1 0 d ≤ (4 * (d + t.depth) + 2) * t.codes.length
  | .value v, d => by simp [Tree.codes, Tree.handled]
  | .function c, d => by simp [Tree.codes, Tree.handled, Tree.depth]
  | .lazy c ts, d => by
    have key : ∀ (us : List (Tree D W E S)), (∀ t ∈ us, t ∈ ts) → ∀ k, (∀ t ∈ us, t.depth ≤ k) →
        (4 * (d + 1) + 2) * (us.map Tree.codes).flatten.length ≤ (us.map fun t => t.handled 1 0 (d + 1)).sum ∧
        (us.map fun t => t.handled 1 0 (d + 1)).sum ≤ (4 * (d + 1 + k) + 2) * (us.map Tree.codes).flatten.length := by
      intro us
      induction us with
      | nil => simp
      | cons u us ih =>
        intro hu k hk
        have hin := hu u (by simp)
        obtain ⟨h1, h2⟩ := handled_between u (d + 1)
        obtain ⟨h3, h4⟩ := ih (fun t h => hu t (by simp [h])) k (fun t h => hk t (by simp [h]))
        have h5 : (4 * (d + 1 + u.depth) + 2) * u.codes.length ≤ (4 * (d + 1 + k) + 2) * u.codes.length :=
          Nat.mul_le_mul_right _ (by have := hk u (by simp); omega)
        simp only [List.map_cons, List.flatten_cons, List.length_append, List.sum_cons, Nat.mul_add] at *
        omega
    have hmax : ∀ (us : List (Tree D W E S)), ∀ t ∈ us, t.depth ≤ (us.map Tree.depth).foldr max 0 := by
      intro us
      induction us with
      | nil => simp
      | cons u us ih =>
        intro t ht
        simp only [List.map_cons, List.foldr_cons]
        rcases List.mem_cons.1 ht with rfl | ht
        · omega
        · have := ih t ht; omega
    obtain ⟨h1, h2⟩ := key ts (fun _ h => h) _ (hmax ts)
    have h3 : (4 * d + 2) * (ts.map Tree.codes).flatten.length ≤ (4 * (d + 1) + 2) * (ts.map Tree.codes).flatten.length := Nat.mul_le_mul_right _ (by omega)
    have e : d + 1 + (ts.map Tree.depth).foldr max 0 = d + ((ts.map Tree.depth).foldr max 0 + 1) := by omega
    rw [e] at h2
    simp only [Tree.codes, Tree.handled, Tree.depth, List.length_append, List.length_cons, List.length_nil]
    have h4 : 4 * (d + 1) + 2 ≤ 4 * (d + ((ts.map Tree.depth).foldr max 0 + 1)) + 2 := by omega
    generalize (4 * (d + ((ts.map Tree.depth).foldr max 0 + 1)) + 2) = q at h2 h4 ⊢
    generalize (ts.map Tree.codes).flatten.length = A at h1 h2 h3 ⊢
    generalize (ts.map fun t => t.handled 1 0 (d + 1)).sum = B at h1 h2 ⊢
    rw [Nat.mul_comm q] at h2 ⊢
    simp only [Nat.zero_add, Nat.add_mul A, Nat.mul_zero, Nat.mul_succ, Nat.one_mul] at *
    omega

omit [CxxData D] in
/-- **C89**: a call makes every function of the tree at least five times, and at most `4 n + 2` times if there are at most `n` lazy functions within each other. -/
theorem C89_between (c : FnCode D W E S) (ts : List (Tree D W E S)) :
    5 * (Tree.lazy c ts).codes.length ≤ (Tree.lazy c ts).handled 1 0 0 ∧
      (Tree.lazy c ts).handled 1 0 0 ≤ (4 * (Tree.lazy c ts).depth + 2) * (Tree.lazy c ts).codes.length := by
  refine ⟨?_, by simpa using (handled_between (Tree.lazy c ts) 0).2⟩
  have key : ∀ us : List (Tree D W E S), 6 * (us.map Tree.codes).flatten.length ≤ (us.map fun t => t.handled 1 0 1).sum := by
    intro us
    induction us with
    | nil => simp
    | cons u us ih =>
      have h := (handled_between u 1).1
      simp only [List.map_cons, List.flatten_cons, List.length_append, List.sum_cons]
      omega
  have := key ts
  simp only [Tree.codes, Tree.handled, List.length_append, List.length_cons, List.length_nil, Nat.zero_add]
  omega

omit [CxxData D] in
/-- **C89**: a chain of `n` lazy functions, each with the next as its only dependency, the last with a plain function: the number of functions made by a call is quadratic. -/
theorem C89_chain (c leaf : FnCode D W E S) (n : Nat) : (Tree.chain c leaf n).handled 1 0 0 = 2 * (n * n) + 7 * n + 2 ∧ (Tree.chain c leaf n).codes.length = n + 1 := by
  have key : ∀ (n d : Nat), (Tree.chain c leaf n).handled 1 0 d = 2 * (n * n) + 7 * n + 2 + 4 * d * (n + 1) := by
    intro n
    induction n with
    | zero => intro d; simp [Tree.chain, Tree.handled]; omega
    | succ n ih =>
      intro d
      simp only [Tree.chain, Tree.handled, List.map_cons, List.map_nil, List.sum_cons, List.sum_nil, ih]
      simp only [Nat.mul_add, Nat.add_mul]
      omega
  refine ⟨by rw [key]; simp, ?_⟩
  induction n with
  | zero => simp [Tree.chain, Tree.codes]
  | succ n ih => simp [Tree.chain, Tree.codes, ih]

/-! ### A call is not linear -/

/-- A chain of `n + 1` lazy functions. -/
def chainOps : Nat → List P
  | 0 => [.mk sum [.function rd]]
  | n + 1 => chainOps n ++ [.mk sum [.var n]]

theorem chainOps_trees : ∀ n, runTrees [] (chainOps n) = (List.range (n + 1)).map fun k => Tree.chain sum.toFnCode rd.toFnCode (k + 1)
  | 0 => rfl
  | n + 1 => by
    have ih := chainOps_trees n
    simp only [runTrees] at ih
    simp only [chainOps, runTrees, List.foldl_append, ih, List.foldl_cons, List.foldl_nil]
    rw [List.range_succ (n := n + 1), List.map_append]
    simp [stepTrees, argTrees, ArgRef.tree, Tree.chain]

theorem chain_ok (n : Nat) : TreeOk { Glue.asWritten with resultByRef := false } canon (Tree.chain sum.toFnCode rd.toFnCode n) := by
  refine ⟨?_, ?_, .inl rfl⟩
  · induction n with
    | zero => exact .function _ rd_ok
    | succ n ih => exact .lazy _ _ sum_ok (by simpa using ih)
  · induction n with
    | zero => exact .function _
    | succ n ih =>
      refine .lazy _ _ ?_ (by simpa using ih)
      intro t ht o vs
      simp only [List.cons.injEq, and_true] at ht
      subst ht
      rw [Demo.chain_eager]
      simp

/-- **C89**, as one would like it, is false: there is no constant such that a call makes at most that many objects for each function of the tree. -/
theorem C89_not_linear : ¬ ∃ K : Nat, ∀ (ops : List P) (i : Nat) (t : T) (n : Nat), (runTrees [] ops)[i]? = some t →
    Handled 1 0 (runM (lang empties id) false (MState.init 5) ops).2.mem (stepM (lang empties id) false (runM (lang empties id) false (MState.init 5) ops).2 (.call i)).2.mem n →
    n ≤ K * t.codes.length := by
  rintro ⟨K, h⟩
  have ht : (runTrees [] (chainOps K))[K]? = some (Tree.chain sum.toFnCode rd.toFnCode (K + 1)) := by
    rw [chainOps_trees]
    simp
  have h1 := C89_every_call (cf := 1) (cv := 0) soundNe empties id (fun _ => rfl) canon 5 (chainOps K) (by
    intro t ht
    rw [chainOps_trees] at ht
    obtain ⟨k, -, rfl⟩ := List.mem_map.1 ht
    exact chain_ok _) K _ ht (.inl rfl)
  have h2 := h _ _ _ _ ht h1
  obtain ⟨e1, e2⟩ := C89_chain sum.toFnCode rd.toFnCode (K + 1)
  rw [e1, e2] at h2
  simp only [Nat.mul_add, Nat.add_mul] at h2
  omega

end Pigro.LM
