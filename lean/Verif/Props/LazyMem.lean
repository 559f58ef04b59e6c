import Verif.Proofs.LazyRun
import Verif.Props.LazyA
import Verif.Props.LazyB
/-!
# C53, C54: lazy functions as objects in memory

`runM (lang Θ moved) byRef`: client programs at the level of objects, addresses and lifetimes (`Model/LazyMem.lean`, `Model/LazyMake.lean`), where
lazy.h is composed from the models of compressed_tuple.h, bind_tuple.h and regular_void.h; `byRef = true` is the pinned code, `byRef = false` the
same code without the deduction guide lazy.h:23-24. `run g`: client programs of `Model/History.lean`, where the copies and references are
given by `g`; `Glue.asWritten` is the pinned code. `moved` is what a moved-from object holds: anything. `Θ` says which callables and values of
the user are of empty type: any.
-/
namespace Pigro.LM
open Cxx Demo
variable {D W E S O : Type} [CxxData D]

/-! ### Example data -/

/-- Captureless lambdas: the world, and the sum of the arguments. -/
def worldFn : F := ⟨⟨11, .val, fun s _ w => (.ok (.data w), s, w)⟩, 0⟩
def plus : F := ⟨⟨12, .val, fun s vs w => (.ok (.data ((vs.map toInt).foldl (· + ·) 0)), s, w)⟩, 0⟩

/-- These are of empty type; and so is the value 7, say an `std::integral_constant`. -/
noncomputable def empties : Empties Int Int Nat Nat := Empties.only [worldFn, plus] [.data 7]

theorem empties_spec : empties.base (.user worldFn) = .empty (.user 0) ∧ empties.base (.func (.wrapDep worldFn)) = .empty (.wrapDep 0) ∧
    empties.base (.obj (.lazyValue (.data 7) false)) = .empty (.lazyValue 0 false) ∧ empties.base (.user rd) = .user := by
  have h : empties.fn rd = none := by
    simp only [empties, Empties.only]
    rw [List.findIdx?_eq_none_iff]
    intro x hx
    simp only [List.mem_cons, List.not_mem_nil, or_false] at hx
    rcases hx with rfl | rfl
    · simp [rd, worldFn]
    · simp [rd, plus]
  simp only [Empties.base, h]
  simp [empties, Empties.only, List.findIdx?_cons]

/-- `auto x = lazy(plus, worldFn, 7, rd); auto y = lazy(plus, x, x);`: elements of empty type and others. -/
def withEmpty : List P :=
  [.mk plus [.function worldFn, .value (.data 7), .function rd], .mk plus [.var 0, .var 0]]

/-! ### C53 -/

/-- **C53.** Every client program, run at memory level, shows the client what `Glue.asWritten` says, and leaves the same world and the same log of
invocations and comparisons behind. -/
theorem C53_pinned (Θ : Empties D W E S) (moved : MV D W E S → MV D W E S) (w : W) (ops : List (Op D W E S)) :
    (runM (lang Θ moved) true (MState.init w) ops).1 = (run Glue.asWritten (State.init w) ops).1.map seen ∧
      (runM (lang Θ moved) true (MState.init w) ops).2.mem.world = (run Glue.asWritten (State.init w) ops).2.env := by
  obtain ⟨h1, h2⟩ := runM_spec Θ moved true ops (MState.init w) (State.init w) (sim_init w)
  exact ⟨h1, h2.env⟩

/-- Same for the code without the deduction guide. -/
theorem C53_without_guide (Θ : Empties D W E S) (moved : MV D W E S → MV D W E S) (w : W) (ops : List (Op D W E S)) :
    (runM (lang Θ moved) false (MState.init w) ops).1 =
        (run { Glue.asWritten with resultByRef := false } (State.init w) ops).1.map seen ∧
      (runM (lang Θ moved) false (MState.init w) ops).2.mem.world =
        (run { Glue.asWritten with resultByRef := false } (State.init w) ops).2.env := by
  obtain ⟨h1, h2⟩ := runM_spec Θ moved false ops (MState.init w) (State.init w) (sim_init w)
  exact ⟨h1, h2.env⟩

/-- What the nested program does at memory level, both ways. -/
example : (runM (lang empties (fun _ => .unit)) true (MState.init 5) (nested ++ [.call 1, .poll 0]) : _ × MState Int Int Nat Nat).1 =
    [.unit, .unit, .ret .ub, .polled .ub] := (C53_pinned _ _ _ _).1.trans rfl

example : (runM (lang empties (fun _ => .unit)) false (MState.init 5) (nested ++ [.call 1, .poke (· + 2), .call 1, .poll 0]) :
      _ × MState Int Int Nat Nat).1 =
    [.unit, .unit, .ret (.ok (some (.data 14))), .unit, .ret (.ok (some (.data 16))), .polled (.ok (some (.data 3), true))] := (C53_without_guide _ _ _ _).1.trans rfl

/-- With elements of empty type. -/
example : (runM (lang empties (fun _ => .unit)) false (MState.init 5) (withEmpty ++ [.call 1, .poke (· + 2), .call 1, .call 0]) :
      _ × MState Int Int Nat Nat).1 =
    [.unit, .unit, .ret (.ok (some (.data 34))), .unit, .ret (.ok (some (.data 42))), .ret (.ok (some (.data 21)))] :=
  (C53_without_guide _ _ _ _).1.trans rfl

/-- In every history, a call of the pinned code at memory level reads an object whose lifetime has ended, unless it throws. -/
theorem C53_call_dangles (Θ : Empties D W E S) (moved : MV D W E S → MV D W E S) (w : W) (ops : List (Op D W E S)) (i : Nat) (t : Tree D W E S)
    (ht : (runTrees [] ops)[i]? = some t) :
    (stepM (lang Θ moved) true (runM (lang Θ moved) true (MState.init w) ops).2 (.call i)).1 = .ret .ub ∨
      ∃ e, (stepM (lang Θ moved) true (runM (lang Θ moved) true (MState.init w) ops).2 (.call i)).1 = .ret (.thrown e) := by
  obtain ⟨-, h2⟩ := runM_spec Θ moved true ops (MState.init w) (State.init w) (sim_init w)
  obtain ⟨h3, -⟩ := stepM_spec Θ moved true _ _ h2 (.call i)
  rw [h3]
  rcases C16_pinned_dangles w ops i t ht with h | ⟨e, h⟩
  · exact .inl (congrArg seen h)
  · exact .inr ⟨e, congrArg seen h⟩

example : (stepM (lang empties (fun _ => .unit)) true (runM (lang empties (fun _ => .unit)) true (MState.init 5) nested : _ × MState Int Int Nat Nat).2 (.call 1)).1 =
    .ret .ub := by
  rcases C53_call_dangles empties (fun _ => .unit) 5 nested 1 yT rfl with h | ⟨e, h⟩
  · exact h
  · obtain ⟨-, h2⟩ := runM_spec empties (fun _ => .unit) true nested (MState.init 5) (State.init 5 : State Int Int Nat Nat) (sim_init 5)
    rw [(stepM_spec empties (fun _ => .unit) true _ _ h2 (.call 1)).1] at h
    exact absurd h (by intro h; cases h)

/-- Without the deduction guide, in every history, a call at memory level returns what evaluating the tree eagerly returns now: nothing is ever
cached, so nothing is ever stale. -/
theorem C53_call_eager (hs : SoundNe D) (Θ : Empties D W E S) (moved : MV D W E S → MV D W E S) (m : Meaning D W E S O) (w : W) (ops : List (Op D W E S))
    (hok : ∀ t ∈ runTrees [] ops, TreeOk { Glue.asWritten with resultByRef := false } m t) (i : Nat) (t : Tree D W E S)
    (ht : (runTrees [] ops)[i]? = some t) :
    (stepM (lang Θ moved) false (runM (lang Θ moved) false (MState.init w) ops).2 (.call i)).1 =
      .ret (.ok (m.result (m.obs (runM (lang Θ moved) false (MState.init w) ops).2.mem.world.w) t)) := by
  obtain ⟨-, h2⟩ := runM_spec Θ moved false ops (MState.init w) (State.init w) (sim_init w)
  obtain ⟨h3, -⟩ := stepM_spec Θ moved false _ _ h2 (.call i)
  rw [h3, h2.env]
  exact congrArg seen (C04_fresh_partial hs { Glue.asWritten with resultByRef := false } (.inr (.inl rfl)) m w ops hok i t ht)

example : (stepM (lang empties (fun _ => .unit)) false (runM (lang empties (fun _ => .unit)) false (MState.init 5) nested : _ × MState Int Int Nat Nat).2 (.call 1)).1 =
    .ret (.ok (some (.data 14))) :=
  (C53_call_eager soundNe empties (fun _ => .unit) canon 5 nested (by
    intro t ht
    rw [nested_trees] at ht
    simp at ht
    rcases ht with rfl | rfl
    · exact xT_ok _ (.inl rfl)
    · exact yT_ok _ (.inl rfl) (.inl rfl)) 1 yT rfl).trans (by
      have hw : (runM (lang empties (fun _ => .unit)) false (MState.init 5) nested : _ × MState Int Int Nat Nat).2.mem.world.w = 5 := by
        rw [(C53_without_guide _ _ _ _).2]
        rfl
      simp [Meaning.result, yT, xT, Meaning.eager, canon, sum, halfArg, rd, half, RetTy.regularize, toInt, hw])

/-! ### C54 -/

/-- **C54.** In every history, no operation of a client changes or ends an object that existed before, be it a variable, the called object
included, or anything else in memory. (That the called object does not change either is what makes caching impossible.) -/
theorem C54_untouched (Θ : Empties D W E S) (moved : MV D W E S → MV D W E S) (byRef : Bool) (w : W) (ops : List (Op D W E S)) (op : Op D W E S) :
    Untouched (runM (lang Θ moved) byRef (MState.init w) ops).2.mem
      (stepM (lang Θ moved) byRef (runM (lang Θ moved) byRef (MState.init w) ops).2 op).2.mem := by
  obtain ⟨-, h2⟩ := runM_spec Θ moved byRef ops (MState.init w) (State.init w) (sim_init w)
  obtain ⟨-, -, h4⟩ := stepM_spec Θ moved byRef _ _ h2 op
  exact fun a ha => ⟨h4.frame a ha (by simp), h4.alive a ha⟩

/-- **C54.** All variables are objects that exist. -/
theorem C54_variables_exist (Θ : Empties D W E S) (moved : MV D W E S → MV D W E S) (byRef : Bool) (w : W) (ops : List (Op D W E S)) :
    ∀ a ∈ (runM (lang Θ moved) byRef (MState.init w) ops).2.vars,
      a < (runM (lang Θ moved) byRef (MState.init w) ops).2.mem.next ∧ (runM (lang Θ moved) byRef (MState.init w) ops).2.mem.alive a = true := by
  obtain ⟨-, h2⟩ := runM_spec Θ moved byRef ops (MState.init w) (State.init w) (sim_init w)
  intro a ha
  obtain ⟨o, -, h⟩ := rel2_mem h2.vars a ha
  exact ⟨h.1, h.2.2.1⟩

/-- The two objects of the nested program and a copy; after calling the second, all are what they were. -/
example : (runM (lang empties (fun _ => .unit)) true (MState.init 5) (nested ++ [.copy 1]) : _ × MState Int Int Nat Nat).2.vars.length = 3 ∧
    Untouched (runM (lang empties (fun _ => .unit)) true (MState.init 5) (nested ++ [.copy 1]) : _ × MState Int Int Nat Nat).2.mem
      (stepM (lang empties (fun _ => .unit)) true (runM (lang empties (fun _ => .unit)) true (MState.init 5) (nested ++ [.copy 1])).2 (.call 1)).2.mem :=
  ⟨by
    have h := (runM_spec empties (fun _ => .unit) true (nested ++ [.copy 1]) (MState.init 5) (State.init 5 : State Int Int Nat Nat) (sim_init 5)).2.vars
    have hl : ∀ {α β : Type} {P : α → β → Prop} {xs : List α} {ys : List β}, Rel2 P xs ys → xs.length = ys.length := by
      intro α β P xs
      induction xs with
      | nil => intro ys h; cases ys <;> first | rfl | exact h.elim
      | cons x xs ih => intro ys h; cases ys <;> first | exact h.elim | exact congrArg (· + 1) (ih h.2)
    rw [hl h]
    rfl, C54_untouched _ _ _ _ _ _⟩

/-! What the model counts as undefined behaviour: the theorems above and C53, C80 say that none of this happens unless said so. -/

omit [CxxData D] in
/-- **C54.** Running a function on an argument that does not exist (any more) is undefined behaviour. -/
theorem C54_ended_argument (k : Kind) (callee : Expr LB) (args : List (Expr LB)) (m : LMem D W E S) (e : Expr LB) (he : e ∈ args)
    (h : m.alive e.addr = false) : (userCode k callee args m).1 = .ub := by
  have hr : ∀ es : List (Expr LB), e ∈ es → readArgs m es = none := by
    intro es
    induction es with
    | nil => intro h; cases h
    | cons x xs ih =>
      intro hx
      rcases List.mem_cons.1 hx with rfl | hx
      · simp [readArgs, look, h]
      · rw [readArgs, ih hx]
        split <;> simp_all
  rw [userCode, hr args he]
  split <;> simp_all

/-- **C54.** Calling an object that does not exist (any more) is undefined behaviour: a lazy object, its function, or a function of the user. -/
theorem C54_ended_called (Λ : LLang D W E S) (byRef : Bool) (callee : Expr LB) (args : List (Expr LB)) (m : LMem D W E S)
    (h : m.alive callee.addr = false) :
    (∀ s : Sh, (callN Λ byRef s callee args m).1 = .ub) ∧ (∀ k : FunSh, (funCode Λ k callee args m).1 = .ub) ∧
      ∀ k : Kind, (userCode k callee args m).1 = .ub := by
  have hl : look m callee.addr = .unit := by simp [look, h]
  refine ⟨fun s => ?_, fun k => ?_, fun k => ?_⟩
  · cases s <;> simp only [callN, unregularizedCode, hl]
  · cases k <;> simp only [funCode, hl]
  · simp only [userCode, hl]

/-- A variable that went out of scope. -/
example : ((callN (lang empties (fun _ => .unit)) true (.lazyValue false) ⟨.user, false, false, .lv, 0⟩ []
    (((MState.init 5).mem.alloc (.obj (.lazyValue (.data 3) false))).kill 0 : LMem Int Int Nat Nat)).1) = .ub :=
  (C54_ended_called _ true _ [] _ rfl).1 _

end Pigro.LM
