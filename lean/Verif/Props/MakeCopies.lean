import Verif.Proofs.MakeCopies
import Verif.Props.LazyMem
/-!
# C92: what making a lazy function copies

`pigro::lazy(f, deps...)` at memory level (Model/LazyMake.lean): every copy and move construction is recorded. Functions and values of the user are weighed by any `wf` and `wv`, such as 1 for one
of them and 0 for all others, which counts how often that one is copied; moving must not change the weight (`hm`). Where C++ elides a copy the model moves, so only copies are counted.
`byRef` (the deduction guide lazy.h:23-24) makes no difference.
-/
namespace Pigro.LM
open Cxx Demo
variable {D W E S : Type} [CxxData D] {wf : UFn D W E S → Nat} {wv : Val D → Nat}

omit [CxxData D] in
/-- The number is determined by the two memories. -/
theorem Copied.unique {m m' : LMem D W E S} {n n' : Nat} (h : Copied wf wv m m' n) (h' : Copied wf wv m m' n') : n = n' := by
  obtain ⟨new, h1, h2⟩ := h
  obtain ⟨new', h3, h4⟩ := h'
  rw [h1, List.append_cancel_left_eq] at h3
  subst h3
  rw [← h2, h4]

/-- **C92**: `pigro::lazy(f, deps...)`, for operands of any value category, copies what its by-value parameters copy (operands that are not non-const rvalues), and besides the function 7 times,
every value and every function among the dependencies 8 times, the constant made for each such function 7 times, and every lazy function among the dependencies 6 times, with all it contains. -/
theorem C92_lazy (Θ : Empties D W E S) (moved : MV D W E S → MV D W E S) (hm : ∀ x, (moved x).weigh wf wv = x.weigh wf wv) (f : Expr LB) (deps : List (Expr LB))
    (u : UFn D W E S) (ds : List (DepArg D W E S)) (m : LMem D W E S) (hf : Den Θ m f (.user u)) (hd : Rel2 (Den Θ m) deps (ds.map argVal)) (hx : Apart (f :: deps))
    (r : Expr LB) (m' : LMem D W E S) (h : pigroLazyM (lang Θ moved) f deps m = some (r, m')) :
    Copied wf wv m m' (((f :: deps).map (passed wf wv m)).sum + 7 * wf u + ((ds.map argVal).map (depCopies wf wv)).sum) :=
  copied_of (pigroLazyM_copying Θ moved hm f deps u ds m hf hd hx r m' h)

/-- A memory with a function, a lazy function and a constant. -/
def three : LMem Int Int Nat Nat := (((MState.init 5).mem.alloc (.user sum)).alloc (.obj (.unregularized (.unwrapped (detailLazy (.regularized halfArg) []))))).alloc (.val (.data 10))

-- `lazy(std::move(f), x, std::as_const(y))`
example (moved : MV Int Int Nat Nat → MV Int Int Nat Nat) (hm : ∀ x, (moved x).weigh (fun _ => 1) (fun _ => 0) = x.weigh (fun _ => 1) (fun _ => 0)) : ∃ r m',
    pigroLazyM (lang empties moved) ⟨empties.base (.user sum), false, false, .xv, 0⟩
      [⟨empties.base (.obj (.unregularized (.unwrapped (detailLazy (.regularized halfArg) [])))), false, false, .lv, 1⟩, ⟨empties.base (.val (.data 10)), true, false, .lv, 2⟩] three = some (r, m') ∧
    Copied (fun _ => 1) (fun _ => 0) three m' 14 := by
  have hf : Den empties three ⟨empties.base (.user sum), false, false, .xv, 0⟩ (.user sum) := ⟨by decide, rfl, rfl⟩
  have hd : Rel2 (Den empties three) [⟨empties.base (.obj (.unregularized (.unwrapped (detailLazy (.regularized halfArg) [])))), false, false, .lv, 1⟩,
      ⟨empties.base (.val (.data 10)), true, false, .lv, 2⟩]
      ([DepArg.lazyObj (.unregularized (.unwrapped (detailLazy (.regularized halfArg) []))), .value (.data 10)].map argVal) := ⟨⟨by decide, rfl, rfl⟩, ⟨by decide, rfl, rfl⟩, trivial⟩
  have hx : Apart [(⟨empties.base (.user sum), false, false, .xv, 0⟩ : Expr LB), ⟨empties.base (.obj (.unregularized (.unwrapped (detailLazy (.regularized halfArg) [])))), false, false, .lv, 1⟩,
      ⟨empties.base (.val (.data 10)), true, false, .lv, 2⟩] := by
    simp [Apart]
  obtain ⟨a, m', h, -⟩ := pigroLazyM_spec empties moved _ _ sum [.lazyObj (.unregularized (.unwrapped (detailLazy (.regularized halfArg) []))), .value (.data 10)] three hf hd hx
  refine ⟨_, m', h, ?_⟩
  have hq := C92_lazy (wf := fun _ => 1) (wv := fun _ => 0) empties moved hm _ _ sum _ three hf hd hx _ _ h
  exact hq

/-- **C92**: in every client program, pinned code, a well-formed `lazy(f, args...)`, values and functions being temporaries, copies the function 7 times, every value and every function among the
dependencies 8 times, the constant made for each such function 7 times, and every lazy function among them 7 times, with all it contains. -/
theorem C92_make (Θ : Empties D W E S) (moved : MV D W E S → MV D W E S) (hm : ∀ x, (moved x).weigh wf wv = x.weigh wf wv) (byRef : Bool) (w : W) (ops : List (Op D W E S))
    (f : UFn D W E S) (args : List (ArgRef D W E S)) (h : (stepM (lang Θ moved) byRef (runM (lang Θ moved) byRef (MState.init w) ops).2 (.mk f args)).1 = .unit) :
    Copied wf wv (runM (lang Θ moved) byRef (MState.init w) ops).2.mem (stepM (lang Θ moved) byRef (runM (lang Θ moved) byRef (MState.init w) ops).2 (.mk f args)).2.mem
      (7 * wf f + (args.map (argCopies wf wv (runM (lang Θ moved) byRef (MState.init w) ops).2)).sum) :=
  copied_of (stepM_copying Θ moved hm byRef _ _ (runM_spec Θ moved byRef ops _ _ (sim_init w)).2 f args h).1

/-- **C92**: so it copies all the new lazy function contains at least 7 and at most 8 times: `o` is the new variable. -/
theorem C92_between (Θ : Empties D W E S) (moved : MV D W E S → MV D W E S) (hm : ∀ x, (moved x).weigh wf wv = x.weigh wf wv) (byRef : Bool) (w : W) (ops : List (Op D W E S))
    (f : UFn D W E S) (args : List (ArgRef D W E S)) (h : (stepM (lang Θ moved) byRef (runM (lang Θ moved) byRef (MState.init w) ops).2 (.mk f args)).1 = .unit) :
    ∃ n o, Copied wf wv (runM (lang Θ moved) byRef (MState.init w) ops).2.mem (stepM (lang Θ moved) byRef (runM (lang Θ moved) byRef (MState.init w) ops).2 (.mk f args)).2.mem n ∧
      (stepM (lang Θ moved) byRef (runM (lang Θ moved) byRef (MState.init w) ops).2 (.mk f args)).2.vars.getLast? = some o ∧
      7 * ((stepM (lang Θ moved) byRef (runM (lang Θ moved) byRef (MState.init w) ops).2 (.mk f args)).2.mem.get o).weigh wf wv ≤ n ∧
      n ≤ 8 * ((stepM (lang Θ moved) byRef (runM (lang Θ moved) byRef (MState.init w) ops).2 (.mk f args)).2.mem.get o).weigh wf wv := by
  obtain ⟨h1, h2⟩ := stepM_copying (wf := wf) (wv := wv) Θ moved hm byRef _ _ (runM_spec Θ moved byRef ops _ _ (sim_init w)).2 f args h
  generalize stepM (lang Θ moved) byRef (runM (lang Θ moved) byRef (MState.init w) ops).2 (.mk f args) = q at h1 h2 ⊢
  have h3 := congrArg List.getLast? h2
  rw [List.getLast?_map, List.getLast?_concat, Option.map_eq_some_iff] at h3
  obtain ⟨o, h4, h5⟩ := h3
  refine ⟨_, o, copied_of h1, h4, ?_⟩
  rw [h5, argCopies_split]
  have key : ∀ (vs : List Nat) (as : List (ArgRef D W E S)), (as.map (onceMore wf wv)).sum ≤ (as.map (argWeight wf wv vs)).sum := by
    intro vs as
    induction as with
    | nil => simp
    | cons a as ih =>
      simp only [List.map_cons, List.sum_cons]
      have : onceMore wf wv a ≤ argWeight wf wv vs a := by
        rcases a with v | u | i <;> simp [onceMore, argWeight]
      omega
  have := key ((runM (lang Θ moved) byRef (MState.init w) ops).2.vars.map fun a => ((runM (lang Θ moved) byRef (MState.init w) ops).2.mem.get a).weigh wf wv) args
  omega

/-- **C92**: a program that makes lazy functions one after another, from temporaries and from lazy functions made before. -/
theorem C92_program (Θ : Empties D W E S) (moved : MV D W E S → MV D W E S) (hm : ∀ x, (moved x).weigh wf wv = x.weigh wf wv) (byRef : Bool) (w : W)
    (l : List (UFn D W E S × List (ArgRef D W E S))) (hl : Valid 0 l) :
    (∀ x ∈ (runM (lang Θ moved) byRef (MState.init w) (makes l)).1, x = .unit) ∧
      Copied wf wv (MState.init w).mem (runM (lang Θ moved) byRef (MState.init w) (makes l)).2.mem (totalCopies wf wv [] l) := by
  obtain ⟨h1, h2⟩ := makes_copying (wf := wf) (wv := wv) Θ moved hm byRef l (MState.init w) (State.init w) (sim_init w) (by simp [State.init]) hl
  exact ⟨h1, copied_of h2⟩

/-- `x = lazy(halfArg, rd); y = lazy(sum, x, 10, half)` -/
def twoLazies : List (F × List A) := [(halfArg, [.function rd]), (sum, [.var 0, .value (.data 10), .function half])]

theorem twoLazies_valid : Valid 0 twoLazies := by
  simp [twoLazies, Valid, rd, half]

-- 5 functions, made into lazy functions that contain 2 and 4
example : Copied (fun _ => 1) (fun _ => 0) (MState.init 5).mem (runM (lang empties id) true (MState.init 5) (makes twoLazies)).2.mem 44 :=
  (C92_program empties id (fun _ => rfl) true 5 twoLazies twoLazies_valid).2

-- constants, two of them not in the program
example : Copied (fun _ => 0) (fun _ => 1) (MState.init 5).mem (runM (lang empties id) true (MState.init 5) (makes twoLazies)).2.mem 29 :=
  (C92_program empties id (fun _ => rfl) true 5 twoLazies twoLazies_valid).2

-- `rd` alone (its number is 1): 8 times for `x`, and 7 times with `x` for `y`
example : Copied (fun u => if u.id = 1 then 1 else 0) (fun _ => 0) (MState.init 5).mem (runM (lang empties id) true (MState.init 5) (makes twoLazies)).2.mem 15 :=
  (C92_program empties id (fun _ => rfl) true 5 twoLazies twoLazies_valid).2

-- the third operation of a program
example : (stepM (lang empties id) true (runM (lang empties id) true (MState.init 5) [.mk halfArg [.function rd], .copy 0]).2 (.mk sum [.var 1, .value (.data 10)])).1 = .unit ∧
    Copied (fun _ => 1) (fun _ => 0) (runM (lang empties id) true (MState.init 5) [.mk halfArg [.function rd], .copy 0]).2.mem
      (stepM (lang empties id) true (runM (lang empties id) true (MState.init 5) [.mk halfArg [.function rd], .copy 0]).2 (.mk sum [.var 1, .value (.data 10)])).2.mem 21 := by
  have hs := (runM_spec empties id true ([.mk halfArg [.function rd], .copy 0] : List P) _ _ (sim_init 5)).2
  have hu := (stepM_spec empties id true _ _ hs (.mk sum [.var 1, .value (.data 10)])).1
  refine ⟨hu, ?_⟩
  have h := C92_make (wf := fun _ => 1) (wv := fun _ => 0) empties id (fun _ => rfl) true 5 [.mk halfArg [.function rd], .copy 0] sum [.var 1, .value (.data 10)] hu
  obtain ⟨x, y, h1, h2, h3⟩ : ∃ x y, (runM (lang empties id) true (MState.init 5) ([.mk halfArg [.function rd], .copy 0] : List P)).2.vars[1]? = some x ∧
      (run (written true) (State.init 5) ([.mk halfArg [.function rd], .copy 0] : List P)).2.vars[1]? = some y ∧
      VarRel (runM (lang empties id) true (MState.init 5) ([.mk halfArg [.function rd], .copy 0] : List P)).2.mem x y := by
    rcases rel2_get hs.vars 1 with ⟨-, h⟩ | h
    · simp at h
      exact absurd h (by decide)
    · exact h
  have hy : y = .unregularized (.unwrapped (detailLazy (.regularized halfArg) [detailLazy (.wrapDep rd) [.lazyValue (.data 0) true]])) := by
    have : (run (written true) (State.init 5) ([.mk halfArg [.function rd], .copy 0] : List P)).2.vars[1]? =
      some (.unregularized (.unwrapped (detailLazy (.regularized halfArg) [detailLazy (.wrapDep rd) [.lazyValue (.data 0) true]]))) := rfl
    rw [this, Option.some.injEq] at h2
    exact h2.symm
  simp only [List.map_cons, List.map_nil, argCopies, h1, h3.2.1, hy] at h
  exact h

/-! ### Not linear -/

/-- A chain of `n + 1` lazy functions, each with the one before as its dependency. -/
def chain (n : Nat) : List (F × List A) := (sum, [.function rd]) :: (List.range' 0 n).map fun k => (sum, [.var k])

theorem chain_valid (n : Nat) : Valid 0 (chain n) := by
  refine ⟨by simp [rd], ?_⟩
  have key : ∀ (n k : Nat), Valid (k + 1) ((List.range' k n).map fun k => ((sum, [.var k]) : F × List A)) := by
    intro n
    induction n with
    | zero => intro k; trivial
    | succ n ih =>
      intro k
      rw [List.range'_succ]
      exact ⟨by simp, ih (k + 1)⟩
  exact key n 0

/-- **C92**: the number of functions copied by making a chain of `n + 1` lazy functions, out of `n + 2` functions. -/
theorem C92_chain (n : Nat) : 2 * totalCopies (fun _ => 1) (fun _ => 0) [] (chain n) = 7 * (n + 1) * (n + 4) + 2 := by
  have key : ∀ (n k : Nat) (ws : List Nat) (c : Nat), ws.length = k + 1 → ws.getD k 0 = c →
      2 * totalCopies (fun _ => 1) (fun _ => 0) ws ((List.range' k n).map fun k => ((sum, [.var k]) : F × List A)) = 7 * n * (2 * c + n + 1) := by
    intro n
    induction n with
    | zero => intro k ws c _ _; simp [totalCopies]
    | succ n ih =>
      intro k ws c h1 h2
      rw [List.range'_succ, List.map_cons, totalCopies]
      have i := ih (k + 1) (ws ++ [1 + c]) (1 + c) (by simp [h1]) (by
        rw [List.getD_eq_getElem?_getD, List.getElem?_append_right (by omega), h1]
        simp)
      simp only [List.map_cons, List.map_nil, List.sum_cons, List.sum_nil, argWeight, onceMore, h2, Nat.add_zero]
      rw [Nat.mul_add, i]
      simp only [Nat.mul_add, Nat.add_mul]
      omega
  rw [chain, totalCopies]
  have i := key n 0 [2] 2 rfl rfl
  simp only [List.map_cons, List.map_nil, List.sum_cons, List.sum_nil, argWeight, onceMore, Nat.add_zero, List.nil_append]
  rw [Nat.mul_add, i]
  simp only [Nat.mul_add, Nat.add_mul]
  omega

/-- The functions in a program. -/
def functions (l : List (F × List A)) : Nat := (l.map fun p => 1 + (p.2.map fun a => match a with | .function _ => 1 | _ => 0).sum).sum

/-- **C92**, as one would like it, is false: there is no constant such that a program that makes lazy functions copies at most that many functions for each function it contains. -/
theorem C92_not_linear : ¬ ∃ K : Nat, ∀ (l : List (F × List A)) (n : Nat), Valid 0 l →
    Copied (fun _ => 1) (fun _ => 0) (MState.init 5).mem (runM (lang empties id) true (MState.init 5) (makes l)).2.mem n → n ≤ K * functions l := by
  rintro ⟨K, h⟩
  have h1 := h (chain K) _ (chain_valid K) (C92_program empties id (fun _ => rfl) true 5 (chain K) (chain_valid K)).2
  have h2 := C92_chain K
  have h3 : functions (chain K) = K + 2 := by
    simp only [functions, chain, List.map_cons, List.sum_cons, List.map_map]
    have : ∀ l : List Nat, (l.map ((fun p : F × List A => 1 + (p.2.map fun a => match a with | .function _ => 1 | _ => 0).sum) ∘ fun k => (sum, [.var k]))).sum = l.length := by
      intro l
      induction l with
      | nil => rfl
      | cons a l ih =>
        rw [List.map_cons, List.sum_cons, ih, List.length_cons]
        simp only [Function.comp_apply, List.map_cons, List.map_nil, List.sum_cons, List.sum_nil]
        omega
    rw [this]
    simp
    omega
  rw [h3] at h1
  rw [Nat.mul_assoc] at h2
  simp only [Nat.mul_add, Nat.add_mul] at h1 h2
  omega

/-- `n + 1` lazy functions, each with the one before as its dependency twice. -/
def doubling (n : Nat) : List (F × List A) := (sum, [.function rd]) :: (List.range' 0 n).map fun k => (sum, [.var k, .var k])

theorem doubling_valid (n : Nat) : Valid 0 (doubling n) := by
  refine ⟨by simp [rd], ?_⟩
  have key : ∀ (n k : Nat), Valid (k + 1) ((List.range' k n).map fun k => ((sum, [.var k, .var k]) : F × List A)) := by
    intro n
    induction n with
    | zero => intro k; trivial
    | succ n ih =>
      intro k
      rw [List.range'_succ]
      exact ⟨by simp, ih (k + 1)⟩
  exact key n 0

/-- **C92**: a program of `n + 1` lazy functions out of `n + 2` functions copies functions more than `2 ^ n` times, if every lazy function is used twice: it becomes part of the other two times. -/
theorem C92_doubling (n : Nat) :
    Copied (fun _ => 1) (fun _ => 0) (MState.init 5).mem (runM (lang empties id) true (MState.init 5) (makes (doubling n))).2.mem (21 * 2 ^ (n + 1) - (7 * n + 27)) := by
  have h := (C92_program (wf := fun _ => 1) (wv := fun _ => 0) empties id (fun _ => rfl) true 5 (doubling n) (doubling_valid n)).2
  have key : ∀ (n k : Nat) (ws : List Nat) (c : Nat), ws.length = k + 1 → ws.getD k 0 = c →
      totalCopies (fun _ => 1) (fun _ => 0) ws ((List.range' k n).map fun k => ((sum, [.var k, .var k]) : F × List A)) + 7 * n + 14 * (c + 1) = 14 * ((c + 1) * 2 ^ n) := by
    intro n
    induction n with
    | zero => intro k ws c _ _; simp [totalCopies]
    | succ n ih =>
      intro k ws c h1 h2
      rw [List.range'_succ, List.map_cons, totalCopies]
      have i := ih (k + 1) (ws ++ [1 + (c + c)]) (1 + (c + c)) (by simp [h1]) (by
        rw [List.getD_eq_getElem?_getD, List.getElem?_append_right (by omega), h1]
        simp)
      have e : (1 + (c + c) + 1) * 2 ^ n = (c + 1) * 2 ^ (n + 1) := by
        rw [Nat.pow_succ, Nat.mul_comm (2 ^ n) 2, ← Nat.mul_assoc]
        congr 1
        omega
      rw [e] at i
      simp only [List.map_cons, List.map_nil, List.sum_cons, List.sum_nil, argWeight, onceMore, h2, Nat.add_zero]
      omega
  have i := key n 0 [1 + 1] 2 rfl rfl
  have e : totalCopies (fun _ => 1) (fun _ => 0) [] (doubling n) = 21 * 2 ^ (n + 1) - (7 * n + 27) := by
    rw [doubling, totalCopies]
    simp only [List.map_cons, List.map_nil, List.sum_cons, List.sum_nil, argWeight, onceMore, Nat.add_zero, List.nil_append]
    have : 2 ^ (n + 1) = 2 ^ n * 2 := Nat.pow_succ ..
    omega
  rwa [e] at h

-- seven lazy functions, eight functions
example : Copied (fun _ => 1) (fun _ => 0) (MState.init 5).mem (runM (lang empties id) true (MState.init 5) (makes (doubling 6))).2.mem 2619 := C92_doubling 6

end Pigro.LM
