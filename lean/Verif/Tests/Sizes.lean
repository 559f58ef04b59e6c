import Verif.Props.CallableLayout
import Verif.Props.LazyLayout
/-!
# Tests of the repository: sizes and `is_empty`

Transcribed from tests/compressed_tuple.test.cpp, tests/bind_tuple.test.cpp, tests/overload.test.cpp, tests/recursive.test.cpp and
tests/lazy.test.cpp, with the sizes of the x86-64 psABI. These are tests of the model, not proofs of properties.
-/
namespace Pigro.Lay.Tests

def empty := exEmpty "Empty"
def int := exPart "int" 4
def double := exPart "double" 8
/-- a lambda without captures -/
def lam (n : String) := exEmpty n
/-- a lambda with captures -/
def lamOf (n : String) (captures : List (Part String)) : Part String := ⟨n, classLayout (.user n) [] (captures.map (·.layout))⟩
def tuple (ps : List (Part String)) : Part String := ⟨s!"tuple{ps.map (·.ty)}", tupleLayout false ps⟩
def bound (t f : Part String) : Part String := ⟨s!"{t.ty} >> {f.ty}", boundLayout false false f t⟩

/-- compressed_tuple.test.cpp:99-137, "basic": size and emptiness of `t1` to `t6`. -/
example : ([[], [int], [int, double], [empty], [empty, double], [double, empty]].map fun ps =>
    ((tupleLayout false ps).size, (tupleLayout false ps).empty)) =
    [(1, true), (4, false), (8 + 8, false), (1, true), (8, false), (8, false)] := by decide

/-- bind_tuple.test.cpp:51-68, "size" -/
example :
    ((bound (tuple [empty]) (lam "f")).layout.size, (bound (tuple [empty]) (lam "f")).layout.empty,
      (bound (tuple [empty]) (lamOf "f" [int])).layout.size, (bound (tuple [int]) (lam "f")).layout.size,
      (bound (tuple [int]) (lamOf "f" [int])).layout.size) = (1, true, 4, 4, 4 + 4) := by decide

/-- bind_tuple.test.cpp:24-32, "stateful" -/
example : ((bound (tuple [int]) (lam "f")).layout.empty, (bound (tuple [int, int, int, int]) (lam "f")).layout.empty) = (false, false) := by
  decide

/-- bind_tuple.test.cpp:73-119: "stateless", "extra_parameters", "mutable", "sfinae_friendly", "zero_args". (A capture of empty type is a member.) -/
example : (empty.layout.empty, (lam "f").layout.empty, (lamOf "f" [empty]).layout.empty, (bound (tuple [empty]) (lam "f")).layout.empty,
      (bound (tuple [empty, empty]) (lam "f")).layout.empty, (overloadOf false [bound (tuple [empty]) (lam "f"), lam "g"]).empty,
      (bound (tuple []) (lam "f")).layout.empty) = (true, true, false, true, true, true, true) := by decide

/-- overload.test.cpp:24-60, "ebo_msvc_workaround", with and without the workaround -/
example (msvc : Bool) : ([[lam "a", lam "b"], [lam "a", lamOf "b" [int]], [lamOf "a" [exPart "char" 1], lam "b"],
      [lam "a", lamOf "b" [int], lam "c", lamOf "d" [int]], [lamOf "a" [int], lam "b", lamOf "c" [int], lam "d"]].map fun fs =>
      ((overloadOf msvc fs).empty, (overloadOf msvc fs).size)) =
    [(true, 1), (false, 4), (false, 1), (false, 2 * 4), (false, 2 * 4)] := by cases msvc <;> decide

/-- recursive.test.cpp:17-31 -/
example : ((recursiveOf (lam "fibonacci")).size, (recursiveOf (lam "fibonacci")).empty) = (1, true) := by decide

/-! lazy.test.cpp:190-229, "memory_footprint" (and :139, "void") -/

/-- the model's size of a lazy function -/
def size (t : LTree ExU) : Nat := (depPart exTypes false t).layout.size

/-- What the test expects and holds: `f1` to `f5`, and `f10`, which it means to check (it checks `f9` again). -/
example : size (.lazy .lam0 none []) = 1 ∧ size (.lazy .lam0 (some .int) []) = 8 ∧ size (.lazy .lamInt (some .int) []) = 4 + 8 ∧
    size (.lazy .lamRef (some .int) []) = 8 + 8 ∧ size (.lazy .lam0 (some .int) [.value .int]) = 8 + 4 ∧
    size (.lazy .lam0 (some .int) [.lazy .lam0 (some .int) []]) = 8 + 8 := by
  refine ⟨?_, ?_, ?_, ?_, ?_, ?_⟩ <;> exact (C55_size exTypes_plain false _ _ _).2.2

/-- What it expects and does not hold: `f6`, whose result type is `std::integral_constant<int, 0>` and not `int`, so that the optional takes 2 bytes and
not the expected 8 (`lam0` stands for the empty class); `f7`, `f8`, `f9`, whose dependency is a plain function, which costs an `int` more than the expected
16, 20 and 24 (`C55_function_costs_int`); and the last line, which has `f9` where it means `f10`, expected 16. -/
example : size (.lazy .lam0 (some .lam0) [.value .lam0]) = 2 ∧ size (.lazy .lam0 (some .int) [.function .lam0 .int]) = 20 ∧
    size (.lazy .lam0 (some .int) [.function .lamInt .int]) = 24 ∧ size (.lazy .lam0 (some .int) [.function .lamRef .int]) = 32 := by
  refine ⟨?_, ?_, ?_, ?_⟩ <;> exact (C55_size exTypes_plain false _ _ _).2.2

end Pigro.Lay.Tests
