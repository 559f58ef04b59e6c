import Verif.Proofs.Typing
import Verif.Proofs.HistoryFresh
/-!
# C59, C60: programs that compile do not go wrong; which programs compile
-/
namespace Pigro
variable {C D W E S : Type} [DecidableEq C] [CxxData D]

/-- C59. In a program that compiles, every operation yields what its type announces: values of the right type, and none exactly for `regular_void`. For
every glue, every history, every user functions that respect their signatures (they may throw and have effects). -/
theorem C59_results (g : Glue) (cls : D → C) (sig : FnSig C D W E S) (w : W) (pre post : List (Op D W E S)) (op : Op D W E S) (Γ' : List (STy C))
    (hf : ∀ op' ∈ pre ++ op :: post, ∀ c ∈ op'.fns, c.Respects cls sig) (hc : checkAll cls sig [] (pre ++ op :: post) = some Γ') :
    ∃ Γ ob, checkAll cls sig [] pre = some Γ ∧ (run g (State.init w) (pre ++ op :: post)).1[pre.length]? = some ob ∧ ob.Typed cls Γ op := by
  have split : ∀ (pre : List (Op D W E S)) (Γ0 : List (STy C)), checkAll cls sig Γ0 (pre ++ op :: post) = some Γ' →
      ∃ Γ Γ1, checkAll cls sig Γ0 pre = some Γ ∧ op.check cls sig Γ = some Γ1 := by
    intro pre
    induction pre with
    | nil =>
      intro Γ0 h
      simp only [List.nil_append, checkAll] at h
      split at h
      · cases h
      · rename_i Γ1 h1; exact ⟨Γ0, Γ1, rfl, h1⟩
    | cons a pre ih =>
      intro Γ0 h
      simp only [List.cons_append, checkAll] at h ⊢
      split at h
      · cases h
      · exact ih _ h
  obtain ⟨Γ, Γ1, h1, h2⟩ := split pre [] hc
  have hlen : ∀ (l : List (Op D W E S)) (s : State D W E S), (run g s l).1.length = l.length := by
    intro l
    induction l with
    | nil => intro s; rfl
    | cons a l ih => intro s; simp [run, ih]
  refine ⟨Γ, (step g (run g (State.init w) pre).2 op).1, h1, ?_, ?_⟩
  · rw [run_append]
    simp [run, hlen]
  · have hs := run_typed (P := fun c => c.Respects cls sig) (fun c h => h) g pre (State.init w) [] Γ
      ⟨rfl, by simp [State.init], by simp [State.init, Env.Typed]⟩ (fun o ho => hf o (by simp [ho])) h1
    exact (step_typed (P := fun c => c.Respects cls sig) (fun c h => h) g hs op (hf op (by simp)) h2).1

/-- C59. In a program that compiles, every user function is only invoked with arguments of types it accepts, and `operator!=` only on values of the same
type. -/
theorem C59_events (g : Glue) (cls : D → C) (sig : FnSig C D W E S) (w : W) (ops : List (Op D W E S)) (Γ : List (STy C))
    (hf : ∀ op ∈ ops, ∀ c ∈ op.fns, c.Respects cls sig) (hc : checkAll cls sig [] ops = some Γ) :
    ∀ e ∈ (run g (State.init w) ops).2.env.log, e.Typed (fun c => ∃ op ∈ ops, c ∈ op.fns) cls sig :=
  (run_typed (P := fun c => ∃ op ∈ ops, c ∈ op.fns) (fun c ⟨op, ho, h⟩ => hf op ho c h) g ops (State.init w) [] Γ
    ⟨rfl, by simp [State.init], by simp [State.init, Env.Typed]⟩ (fun op ho c h => ⟨op, ho, h⟩) hc).2.2

omit [DecidableEq C] [CxxData D] in
theorem types_iff (cls : D → C) (sig : FnSig C D W E S) (Γ : List (STy C)) : ∀ (deps : List (ArgRef D W E S)) (ts : List (STy C)),
    ArgRef.types cls sig Γ deps = some ts ↔ GivesAll cls sig Γ deps ts
  | [], ts => by
    constructor
    · intro h; cases h; exact .nil
    · intro h; cases h; rfl
  | a :: as, ts => by
    have ha : ∀ t, a.type cls sig Γ = some t ↔ a.Gives cls sig Γ t := by
      intro t
      cases a with
      | value v => simp [ArgRef.type, ArgRef.Gives]
      | function u =>
        simp only [ArgRef.type, ArgRef.Gives]
        cases sig u.toFnCode [] with
        | none => simp
        | some r => cases r <;> simp
      | var i => simp [ArgRef.type, ArgRef.Gives]
    constructor
    · intro h
      simp only [ArgRef.types] at h
      split at h
      · rename_i t ts' h1 h2
        cases h
        exact .cons ((ha t).1 h1) ((types_iff cls sig Γ as ts').1 h2)
      · cases h
    · intro h
      cases h with
      | cons h1 h2 => simp [ArgRef.types, (ha _).2 h1, (types_iff cls sig Γ as _).2 h2]

omit [CxxData D] in
/-- `lazy(f, deps...)` compiles exactly if `f` accepts the values of its dependencies and (a lone tuple being unpacked) what `transform` makes of them, with
the same result type. -/
theorem C60_exact (cls : D → C) (sig : FnSig C D W E S) (Γ Γ' : List (STy C)) (f : UFn D W E S) (deps : List (ArgRef D W E S)) :
    (Op.mk f deps).check cls sig Γ = some Γ' ↔
      ∃ ts r, GivesAll cls sig Γ deps ts ∧ sig f.toFnCode ts = some r ∧ (∀ us, ts = [.tup us] → sig f.toFnCode us = some r) ∧ Γ' = Γ ++ [r.value] := by
  have hctad : ∀ ts : List (STy C), (∀ us, ts ≠ [.tup us]) → tupleCTAD STy.asTuple ts = ts := by
    intro ts h
    match ts with
    | [] => rfl
    | [.data _] => rfl
    | [.rvoid] => rfl
    | [.tup us] => exact absurd rfl (h us)
    | _ :: _ :: _ => rfl
  have hlt : ∀ ts t, lazyType sig f.toFnCode ts = some t ↔
      ∃ r, sig f.toFnCode ts = some r ∧ (∀ us, ts = [.tup us] → sig f.toFnCode us = some r) ∧ t = r.value := by
    intro ts t
    have hv : ∀ r : RTy C, r.regularize = r.value := fun r => by cases r <;> rfl
    constructor
    · intro h
      obtain ⟨r, h1, h2, h3⟩ := lazyType_some h
      refine ⟨r, h1, fun us hu => ?_, h3.trans (hv r)⟩
      subst hu
      exact h2
    · rintro ⟨r, h1, h2, rfl⟩
      have : sig f.toFnCode (tupleCTAD STy.asTuple ts) = some r := by
        by_cases hl : ∃ us, ts = [.tup us]
        · obtain ⟨us, rfl⟩ := hl
          exact h2 us rfl
        · rw [hctad ts fun us hu => hl ⟨us, hu⟩]
          exact h1
      simp [lazyType, h1, this, hv]
  constructor
  · intro h
    simp only [Op.check] at h
    split at h
    · cases h
    · rename_i ts hts
      split at h
      · cases h
      · rename_i t ht
        cases h
        obtain ⟨r, h1, h2, rfl⟩ := (hlt ts t).1 ht
        exact ⟨ts, r, (types_iff ..).1 hts, h1, h2, rfl⟩
  · rintro ⟨ts, r, h0, h1, h2, rfl⟩
    simp [Op.check, (types_iff ..).2 h0, (hlt ts r.value).2 ⟨r, h1, h2, rfl⟩]

omit [CxxData D] in
/-- C60. Full statement: `lazy(f, deps...)` compiles exactly if `f` accepts the values of the dependencies, and its values have the type `f` returns.
Missing: a lone dependency whose value is a tuple (`C60_tuple_rejected`). -/
theorem C60_compiles_partial (cls : D → C) (sig : FnSig C D W E S) (Γ Γ' : List (STy C)) (f : UFn D W E S) (deps : List (ArgRef D W E S))
    (hl : ∀ us, ¬ GivesAll cls sig Γ deps [.tup us]) :
    (Op.mk f deps).check cls sig Γ = some Γ' ↔ ∃ ts r, GivesAll cls sig Γ deps ts ∧ sig f.toFnCode ts = some r ∧ Γ' = Γ ++ [r.value] := by
  rw [C60_exact]
  constructor
  · rintro ⟨ts, r, a, b, -, d⟩; exact ⟨ts, r, a, b, d⟩
  · rintro ⟨ts, r, a, b, d⟩
    exact ⟨ts, r, a, b, fun us hu => absurd (hu ▸ a) (hl us), d⟩

omit [CxxData D] in
/-- C60 is false: a function of one tuple, applied to one dependency with such a value, does not compile, unless it also accepts the elements. -/
theorem C60_tuple_rejected (cls : D → C) (sig : FnSig C D W E S) (Γ : List (STy C)) (f : UFn D W E S) (a : ArgRef D W E S) (us : List (STy C))
    (ha : a.Gives cls sig Γ (.tup us)) (hf : sig f.toFnCode us = none) : (Op.mk f [a]).check cls sig Γ = none := by
  cases h : (Op.mk f [a]).check cls sig Γ with
  | none => rfl
  | some Γ' =>
    obtain ⟨ts, r, h1, h2, h3, -⟩ := (C60_exact ..).1 h
    have : ts = [.tup us] := by
      have e1 := (types_iff cls sig Γ [a] ts).2 h1
      have e2 := (types_iff cls sig Γ [a] [.tup us]).2 (.cons ha .nil)
      rw [e1] at e2
      exact Option.some.inj e2
    rw [h3 us this] at hf
    cases hf

/-! ### A program with integers and Booleans -/

namespace Demo2

instance : CxxData (Int ⊕ Bool) := ⟨fun a b => a != b, .inl 0⟩
abbrev F := UFn (Int ⊕ Bool) Int Nat Nat
abbrev B := STy Bool

/-- Type `true`: Booleans, `false`: integers. -/
def cls : Int ⊕ Bool → Bool := Sum.isRight
def int : B := .data false
def bool : B := .data true

/-- `int()`: reads the world. -/
def rd : F := ⟨⟨0, .val, fun s _ w => (.ok (.data (.inl w)), s + 1, w)⟩, 0⟩
/-- `bool(int)`; throws for 13. -/
def isPos : F := ⟨⟨1, .val, fun s vs w => match vs with
  | [.data (.inl n)] => (if n = 13 then .error 13 else .ok (.data (.inr (decide (0 < n)))), s + 1, w)
  | _ => (.ok (.data (.inr false)), s, w)⟩, 0⟩
/-- `int(bool, int)`. -/
def pick : F := ⟨⟨2, .val, fun s vs w => match vs with
  | [.data (.inr b), .data (.inl n)] => (.ok (.data (.inl (if b then n else 0))), s + 1, w)
  | _ => (.ok (.data (.inl 0)), s, w)⟩, 0⟩
/-- `void(int)`: counts in the world. -/
def proc : F := ⟨⟨3, .void, fun s _ w => (.ok .rvoid, s + 1, w + 1)⟩, 0⟩
/-- `int(std::tuple<int, bool>)`: accepts a tuple only. -/
def ofPair : F := ⟨⟨4, .val, fun s _ w => (.ok (.data (.inl 1)), s, w)⟩, 0⟩

/-- The signatures above; other functions accept nothing. -/
def sig : FnSig Bool (Int ⊕ Bool) Int Nat Nat := fun c ts =>
  if c.id = 0 ∧ ts = [] then some (.val int)
  else if c.id = 1 ∧ ts = [int] then some (.val bool)
  else if c.id = 2 ∧ ts = [bool, int] then some (.val int)
  else if c.id = 3 ∧ ts = [int] then some .void
  else if c.id = 4 ∧ ts = [.tup [int, bool]] then some (.val int)
  else none

/-- `x0 = lazy(isPos, rd); x1 = lazy(pick, x0, 5); x2 = lazy(proc, x1); x2(); x1(nullptr)` -/
def prog : List (Op (Int ⊕ Bool) Int Nat Nat) :=
  [.mk isPos [.function rd], .mk pick [.var 0, .value (.data (.inl 5))], .mk proc [.var 1], .call 2, .poll 1]

theorem prog_checks : checkAll cls sig [] prog = some [bool, int, .rvoid] := by decide

theorem rd_respects : rd.toFnCode.Respects cls sig := by
  intro ts r h
  simp [sig, rd] at h
  obtain ⟨rfl, rfl⟩ := h
  exact ⟨rfl, fun t ht st args w v _ hv => by cases ht; cases hv; rfl⟩

theorem isPos_respects : isPos.toFnCode.Respects cls sig := by
  intro ts r h
  simp [sig, isPos] at h
  obtain ⟨rfl, rfl⟩ := h
  refine ⟨rfl, fun t ht st args w v _ hv => ?_⟩
  cases ht
  simp only [isPos] at hv
  split at hv
  · split at hv
    · cases hv
    · cases hv; rfl
  · cases hv; rfl

theorem pick_respects : pick.toFnCode.Respects cls sig := by
  intro ts r h
  simp [sig, pick] at h
  obtain ⟨rfl, rfl⟩ := h
  refine ⟨rfl, fun t ht st args w v _ hv => ?_⟩
  cases ht
  simp only [pick] at hv
  split at hv <;> (cases hv; rfl)

theorem proc_respects : proc.toFnCode.Respects cls sig := by
  intro ts r h
  simp [sig, proc] at h
  obtain ⟨rfl, rfl⟩ := h
  exact ⟨rfl, fun t ht => by cases ht⟩

theorem prog_respects : ∀ op ∈ prog, ∀ c ∈ op.fns, c.Respects cls sig := by
  intro op ho c hc
  simp only [prog, List.mem_cons, List.not_mem_nil, or_false] at ho
  rcases ho with rfl | rfl | rfl | rfl | rfl <;> simp [Op.fns] at hc
  · rcases hc with rfl | rfl
    · exact isPos_respects
    · exact rd_respects
  · exact hc ▸ pick_respects
  · exact hc ▸ proc_respects

/-- The hypotheses of C59 hold for `prog`; the call returns nothing, as its type says. -/
example (w : Int) : ∃ Γ ob, checkAll cls sig [] (prog.take 3) = some Γ ∧ (run Glue.retained (State.init w) prog).1[3]? = some ob ∧
    ob.Typed cls Γ (Op.call 2 : Op (Int ⊕ Bool) Int Nat Nat) :=
  C59_results Glue.retained cls sig w (prog.take 3) [.poll 1] (.call 2) _ prog_respects prog_checks

example (w : Int) : ∀ e ∈ (run Glue.asWritten (State.init w) prog).2.env.log, e.Typed (fun c => ∃ op ∈ prog, c ∈ op.fns) cls sig :=
  C59_events Glue.asWritten cls sig w prog _ prog_respects prog_checks

/-- It does something: with retained state, world 7, the call invokes `rd`, `isPos`, `pick`, `proc`. -/
example : (run Glue.retained (State.init 7) (prog.take 4)).2.env.w = 8 ∧ (run Glue.retained (State.init 7) (prog.take 4)).2.env.log.length = 4 := by
  constructor <;> rfl

/-- Ill-typed programs are rejected: `lazy(pick, 5, x0)` and `lazy(isPos, proc)` (a `void` function as dependency). -/
example : (Op.mk pick [.value (.data (.inl 5)), .var 0]).check cls sig [bool] = none ∧ (Op.mk isPos [.function proc]).check cls sig [] = none := by
  constructor <;> decide

/-- C60: `ofPair` accepts a pair, `lazy(ofPair, pair)` does not compile; with a further dependency (`C60_compiles_partial`) it would. -/
example : sig ofPair.toFnCode [.tup [int, bool]] = some (.val int) ∧
    (Op.mk ofPair [.value (.tup [.data (.inl 1), .data (.inr true)])]).check cls sig [] = none :=
  ⟨by decide, C60_tuple_rejected cls sig [] ofPair _ [int, bool] rfl (by decide)⟩

example : (Op.mk pick [.var 0, .value (.data (.inl 5))]).check cls sig [bool] = some [bool, int] := by
  refine (C60_compiles_partial cls sig [bool] [bool, int] pick [.var 0, .value (.data (.inl 5))] ?_).2
    ⟨[bool, int], .val int, .cons rfl (.cons rfl .nil), by decide, rfl⟩
  intro us h
  cases h with
  | cons _ h => cases h

end Demo2

end Pigro
