import Verif.Model.History
/-!
# tests/lazy.test.cpp, run on the model

These are tests of the model, not proofs of properties: each test of the repository is transcribed and evaluated. `retained` is the documented design, for
which every expectation is met. `Glue.asWritten` is the pinned code, for which every call is undefined behaviour (F2); `byValue` is the pinned code
without the deduction guide that makes the results references, which shows what else goes wrong (F1). Counters and variables captured by reference are the world.
-/
namespace Pigro.Tests

instance : CxxData Int := ⟨fun a b => a != b, 0⟩

/-- The local variables of a test. -/
abbrev World := List Int

abbrev U := UFn Int World Unit Unit
abbrev P := Op Int World Unit Unit

/-- `++x_i` -/
def bump (i : Nat) (w : World) : World := w.modify i (· + 1)

def int : Val Int → Int
  | .data n => n
  | _ => 0

def sumOf (vs : List (Val Int)) : Int := (vs.map int).foldl (· + ·) 0

/-- What the test sees of an operation: a value; `void`; undefined behaviour; anything else. -/
inductive Seen where
  | int (n : Int)
  | void
  | ub
  | other
  deriving DecidableEq

def seen : Obs Int Unit → Seen
  | .ret (.ok (some (.data n))) => .int n
  | .ret (.ok none) => .void
  | .ret .ub => .ub
  | _ => .other

/-- Every operation with what it returns and the local variables after it. -/
def traceFrom (g : Glue) : State Int World Unit Unit → List P → List (Seen × World)
  | _, [] => []
  | s, op :: ops =>
    let r := step g s op
    (seen r.1, r.2.env.w) :: traceFrom g r.2 ops

def trace (g : Glue) (w : World) (ops : List P) : List (Seen × World) := traceFrom g (.init w) ops

/-- The pinned code, but `LazyResult` holds a value. -/
def byValue : Glue := { Glue.asWritten with resultByRef := false }

/-- Number of comparisons of a program with the user's `operator!=`, after every operation. -/
def comparisons (g : Glue) : State Int World Unit Unit → List P → List Nat
  | _, [] => []
  | s, op :: ops =>
    let r := step g s op
    (r.2.env.log.countP fun | .cmp _ _ => true | _ => false) :: comparisons g r.2 ops

/-! ### "cached" -/

/-- `[&] { ++counter; return 42; }` -/
def cachedF : U := ⟨⟨0, .val, fun s _ w => (.ok (.data 42), s, bump 0 w)⟩, ()⟩

def cached : List P := [.mk cachedF [], .call 0, .call 0]

example : trace .retained [0] cached = [(.other, [0]), (.int 42, [1]), (.int 42, [1])] := by decide
example : trace byValue [0] cached = [(.other, [0]), (.int 42, [1]), (.int 42, [2])] := by decide
example : trace .asWritten [0] cached = [(.other, [0]), (.ub, [1]), (.ub, [2])] := by decide

/-! ### "dependencies": variables `bar_counter`, `bar_result`, `foo_counter` -/

/-- `[&] { ++bar_counter; return bar_result; }` -/
def depBar : U := ⟨⟨0, .val, fun s _ w => (.ok (.data (w.getD 1 0)), s, bump 0 w)⟩, ()⟩
/-- `[&](auto bar) { ++foo_counter; return bar + 2; }` -/
def depFoo : U := ⟨⟨1, .val, fun s vs w => (.ok (.data (sumOf vs + 2)), s, bump 2 w)⟩, ()⟩

def dependencies : List P := [.mk depFoo [.function depBar], .call 0, .call 0, .poke (bump 1), .call 0]

example : trace .retained [0, 40, 0] dependencies =
    [(.other, [0, 40, 0]), (.int 42, [1, 40, 1]), (.int 42, [2, 40, 1]), (.other, [2, 41, 1]), (.int 43, [3, 41, 2])] := by decide
example : trace byValue [0, 40, 0] dependencies =
    [(.other, [0, 40, 0]), (.int 42, [1, 40, 1]), (.int 42, [2, 40, 2]), (.other, [2, 41, 2]), (.int 43, [3, 41, 3])] := by decide

/-! ### "lazy_dependencies": variables `baz_counter`, `baz_result`, `bar_counter`, `foo_counter` -/

/-- `[&] { ++baz_counter; return baz_result; }` -/
def lazyBaz : U := ⟨⟨0, .val, fun s _ w => (.ok (.data (w.getD 1 0)), s, bump 0 w)⟩, ()⟩
/-- `[&](auto baz) { ++bar_counter; return baz + 2; }` -/
def lazyBar : U := ⟨⟨1, .val, fun s vs w => (.ok (.data (sumOf vs + 2)), s, bump 2 w)⟩, ()⟩
/-- `[&](auto bar) { ++foo_counter; return bar + 40; }` -/
def lazyFoo : U := ⟨⟨2, .val, fun s vs w => (.ok (.data (sumOf vs + 40)), s, bump 3 w)⟩, ()⟩

def lazyDependencies : List P :=
  [.mk lazyBar [.function lazyBaz], .mk lazyFoo [.var 0], .call 1, .call 1, .poke (bump 1), .call 1, .call 1]

example : trace .retained [0, 0, 0, 0] lazyDependencies =
    [(.other, [0, 0, 0, 0]), (.other, [0, 0, 0, 0]), (.int 42, [1, 0, 1, 1]), (.int 42, [2, 0, 1, 1]), (.other, [2, 1, 1, 1]), (.int 43, [3, 1, 2, 2]),
      (.int 43, [4, 1, 2, 2])] := by decide
example : trace byValue [0, 0, 0, 0] lazyDependencies =
    [(.other, [0, 0, 0, 0]), (.other, [0, 0, 0, 0]), (.int 42, [1, 0, 1, 1]), (.int 42, [2, 0, 2, 2]), (.other, [2, 1, 2, 2]), (.int 43, [3, 1, 3, 3]),
      (.int 43, [4, 1, 4, 4])] := by decide

/-! ### "values": variable `eval_count` -/

/-- `[&](auto x) { ++eval_count; return x + 40; }` -/
def valuesF : U := ⟨⟨0, .val, fun s vs w => (.ok (.data (sumOf vs + 40)), s, bump 0 w)⟩, ()⟩

def values : List P := [.mk valuesF [.value (.data 2)], .call 0, .call 0]

example : trace .retained [0] values = [(.other, [0]), (.int 42, [1]), (.int 42, [1])] := by decide
example : trace byValue [0] values = [(.other, [0]), (.int 42, [1]), (.int 42, [2])] := by decide

/-! ### "void" (the size is tested with the layout model) -/

/-- `[] {}` -/
def voidF : U := ⟨⟨0, .void, fun s _ w => (.ok .rvoid, s, w)⟩, ()⟩

example : trace .retained [] [.mk voidF [], .call 0] = [(.other, []), (.void, [])] := by decide
example : trace byValue [] [.mk voidF [], .call 0] = [(.other, []), (.void, [])] := by decide

/-! ### "comparisons": variables `f_result.object`, `g_result.object`. The counters are those of the log; only `f_result` changes, so comparisons of
results of `f` and `g` are told apart by making `g_result.object` large. -/

/-- `[&]() { return f_result; }` -/
def cmpF : U := ⟨⟨0, .val, fun s _ w => (.ok (.data (w.getD 0 0)), s, w)⟩, ()⟩
/-- `[&](auto f) { return g_result; }` -/
def cmpG : U := ⟨⟨1, .val, fun s _ w => (.ok (.data (w.getD 1 0)), s, w)⟩, ()⟩
/-- `[&](auto g) { return 0; }` -/
def cmpH : U := ⟨⟨2, .val, fun s _ w => (.ok (.data 0), s, w)⟩, ()⟩

def comparisonsTest : List P :=
  [.mk cmpG [.function cmpF], .mk cmpH [.var 0], .call 1, .call 1, .poke (bump 0), .call 1]

/-- In all; one more each for `f` in the second and third, one for `g` in the third call. -/
example : comparisons .retained (.init [0, 1000]) comparisonsTest = [0, 0, 0, 1, 1, 3] := by decide
/-- The pinned code never compares: there is never a previous value. -/
example : comparisons byValue (.init [0, 1000]) comparisonsTest = [0, 0, 0, 0, 0, 0] := by decide

/-- Comparisons of results of `f` (small) and of `g` (large). -/
def comparisonsOf (g : Glue) (large : Bool) : State Int World Unit Unit → List P → List Nat
  | _, [] => []
  | s, op :: ops =>
    let r := step g s op
    (r.2.env.log.countP fun | .cmp a _ => decide (int a ≥ 1000) == large | _ => false) :: comparisonsOf g large r.2 ops

example : comparisonsOf .retained false (.init [0, 1000]) comparisonsTest = [0, 0, 0, 1, 1, 2] := by decide
example : comparisonsOf .retained true (.init [0, 1000]) comparisonsTest = [0, 0, 0, 0, 0, 1] := by decide

/-! ### "variadic_dependencies" -/

/-- `[](auto... xs) { return (xs + ... + 0); }` -/
def sumF : U := ⟨⟨0, .val, fun s vs w => (.ok (.data (sumOf vs)), s, w)⟩, ()⟩

def variadic : List P :=
  [.mk sumF [], .mk sumF [.value (.data 1)], .mk sumF [.value (.data 1), .value (.data 2)], .call 0, .call 1, .call 2]

example : (trace .retained [] variadic).map (·.1) = [.other, .other, .other, .int 0, .int 1, .int 3] := by decide
example : (trace byValue [] variadic).map (·.1) = [.other, .other, .other, .int 0, .int 1, .int 3] := by decide

end Pigro.Tests
