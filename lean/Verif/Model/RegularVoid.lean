import Verif.Model.Value
/-!
# regular_void.h: programs using `std::optional<pigro::regular_void>`
-/
namespace Pigro.RV

/-- Operations on variables of type `std::optional<regular_void>` (everything the specialisation
regular_void.h:45-72 offers; copying and copy assignment are implicitly defined). -/
inductive Op where
  | default                  -- `optional<regular_void> x;` or `{}`
  | ofValue                  -- `optional<regular_void> x{ regular_void{} };`
  | copy (i : Nat)           -- `auto x = x_i;`
  | assign (i : Nat)         -- `x_i = regular_void{};`
  | copyAssign (i j : Nat)   -- `x_i = x_j;`
  | test (i : Nat)           -- `if (x_i)`
  | eq (i j : Nat)           -- `x_i == x_j`
  | ne (i j : Nat)           -- `x_i != x_j`
  | neValue (i : Nat)        -- `x_i != regular_void{}` (through the converting constructor)
  | deref (i : Nat)          -- `*x_i`
  deriving DecidableEq

/-- Answers. `undef`: no answer is guaranteed (client code using regular_void.h:45-72). -/
inductive Ans where
  | none
  | bool (b : Bool)
  | value
  | undef
  deriving DecidableEq

/-- One operation on the variables; an operation on a variable that does not exist does nothing (client code using regular_void.h:45-72). -/
def step (xs : List OptRV) : Op → Ans × List OptRV
  | .default => (.none, xs ++ [OptRV.default])
  | .ofValue => (.none, xs ++ [OptRV.ofRV])
  | .copy i => (.none, xs ++ xs[i]?.toList)
  | .assign i => (.none, xs.modify i OptRV.assign)
  | .copyAssign i j => match xs[j]? with
    | some y => (.none, xs.set i y)
    | none => (.none, xs)
  | .test i => match xs[i]? with
    | some x => (.bool x.toBool, xs)
    | none => (.none, xs)
  | .eq i j => match xs[i]?, xs[j]? with
    | some x, some y => (.bool (OptRV.eq x y), xs)
    | _, _ => (.none, xs)
  | .ne i j => match xs[i]?, xs[j]? with
    | some x, some y => (.bool (OptRV.ne x y), xs)
    | _, _ => (.none, xs)
  | .neValue i => match xs[i]? with
    | some x => (.bool (OptRV.ne x OptRV.ofRV), xs)
    | none => (.none, xs)
  | .deref i => match xs[i]? with
    | some x => (match OptRV.deref x with | () => .value, xs)
    | none => (.none, xs)

/-- A program (client code using regular_void.h:45-72). -/
def run : List OptRV → List Op → List Ans
  | _, [] => []
  | xs, op :: ops => (step xs op).1 :: run (step xs op).2 ops

end Pigro.RV
