import Verif.Model.Concepts
/-!
# C66: which operands `>>` and `<<` accept
-/
namespace Pigro.Con

/-- Tuple-like: there is a size, and a type for every element. -/
def IsTuple (t : TyInfo) : Prop := ∃ n, t.size = some n ∧ ∀ i, i < n → t.elem i = true

theorem foldElements_yes (t : TyInfo) (is : List Nat) : foldElements t is = .yes ↔ ∀ i ∈ is, t.elem i = true := by
  induction is with
  | nil => simp [foldElements]
  | cons i is ih =>
    rcases h : t.elem i with _ | _ <;> simp [foldElements, hasTupleElement, h, Sat.and, ih]

theorem foldElements_hard (t : TyInfo) (is : List Nat) : foldElements t is ≠ .hard := by
  induction is with
  | nil => simp [foldElements]
  | cons i is ih =>
    rcases h : t.elem i with _ | _ <;> simp [foldElements, hasTupleElement, h, Sat.and, ih]

/-- **C66** (what is true). `tuple_like` is satisfied by exactly the tuple-like types. -/
theorem C66_tuple_like (t : TyInfo) : tupleLike t = .yes ↔ IsTuple t := by
  unfold tupleLike requiresTupleSize elementsCall IsTuple
  rcases t.size with _ | n
  · simp [Sat.and]
  · simp [Sat.and, foldElements_yes]

/-- **C66** in full: `tuple_like` is satisfied by the tuple-like types and not satisfied by all others,
`tupleLike t = if IsTuple t then .yes else .no`. True for types with a size; what is missing is the case of types without (`C66_hard_error`). -/
theorem C66_decides_partial (t : TyInfo) (n : Nat) (h : t.size = some n) : (IsTuple t → tupleLike t = .yes) ∧ (¬ IsTuple t → tupleLike t = .no) := by
  refine ⟨(C66_tuple_like t).2, fun hn => ?_⟩
  have h1 : tupleLike t ≠ .yes := fun hy => hn ((C66_tuple_like t).1 hy)
  have h2 : tupleLike t ≠ .hard := by
    simp only [tupleLike, requiresTupleSize, Sat.and, elementsCall, h]
    exact foldElements_hard t _
  rcases hs : tupleLike t with _ | _ | _
  · exact absurd hs h1
  · rfl
  · exact absurd hs h2

/-- **C66** is false, for every type without a size: asking makes the program ill-formed, and so does `a >> f`, even if `a` has its own operator. -/
theorem C66_hard_error (t : TyInfo) (h : t.size = none) (another : Bool) : tupleLike t = .hard ∧ shiftOperator another t = .illFormed := by
  have : tupleLike t = .hard := by simp [tupleLike, requiresTupleSize, Sat.and, elementsCall, h]
  simp [shiftOperator, this]

/-- **C66**, exact: where pigro's operator is found, an expression that has an operator of its own keeps it iff the operand has a size. -/
theorem C66_other_operators (t : TyInfo) : shiftOperator true t = .other ↔ t.size ≠ none := by
  rcases h : t.size with _ | n
  · simp [(C66_hard_error t h true).2]
  · have : tupleLike t ≠ .hard := by
      simp only [tupleLike, requiresTupleSize, Sat.and, elementsCall, h]
      exact foldElements_hard t _
    rcases hs : tupleLike t with _ | _ | _ <;> simp [shiftOperator, hs] <;> exact absurd hs this

/-- **C66**, exact: where pigro's operator is found and there is no other, it is used iff the operand is tuple-like; otherwise the program is ill-formed. -/
theorem C66_own_operator (t : TyInfo) : (shiftOperator false t = .pigro ↔ IsTuple t) ∧ (shiftOperator false t = .illFormed ↔ ¬ IsTuple t) := by
  rw [← C66_tuple_like]
  rcases hs : tupleLike t with _ | _ | _ <;> simp [shiftOperator, hs]

/-! ### Examples: `std::tuple<A, B, C>`, `int`, and a class with a `std::tuple_size` of 2 of which only one element type is known. -/

def exTuple : TyInfo := ⟨some 3, fun i => decide (i < 3)⟩
def exInt : TyInfo := ⟨none, fun _ => false⟩
def exHalf : TyInfo := ⟨some 2, fun i => i == 0⟩

example : tupleLike exTuple = .yes := (C66_tuple_like _).2 ⟨3, rfl, by simp [exTuple]⟩
example : tupleLike exHalf = .no := (C66_decides_partial exHalf 2 rfl).2 fun ⟨n, h1, h2⟩ => by
  cases h1; simpa [exHalf] using h2 1 (by omega)
/-- `std::cout << 1` inside of namespace `pigro`: the left operand has no size. -/
example : shiftOperator true exInt = .illFormed := (C66_hard_error exInt rfl true).2
example : shiftOperator true exHalf = .other := (C66_other_operators _).2 (by simp [exHalf])
example : shiftOperator false exTuple = .pigro := (C66_own_operator _).1.2 ⟨3, rfl, by simp [exTuple]⟩

end Pigro.Con
