/-!
# concepts.h: `tuple_like`; the constraint of `operator>>` and `operator<<`

Checking a constraint satisfies it, does not satisfy it, or makes the program ill-formed: an error outside the immediate context of the substitution
does not count as "not satisfied" ([temp.constr.atomic], [temp.deduct.general]).
-/
namespace Pigro.Con

/-- Outcome of checking a constraint (language rule, for concepts.h:26-40). -/
inductive Sat where
  | yes | no | hard
  deriving DecidableEq

/-- What `std::remove_reference_t<T>` is to the tuple protocol: `size`: the value of `std::tuple_size`, if it has one (the primary template is incomplete,
and a specialisation for a cv-qualified type without value has none); `elem i`: whether `std::tuple_element<i, T>::type` exists (what concepts.h:26-40 asks about). -/
structure TyInfo where
  size : Option Nat
  elem : Nat → Bool

/-- `a && b` as constraints: `b` is only checked if `a` is satisfied (language rule, for concepts.h:36-40). -/
def Sat.and (a : Sat) (b : Unit → Sat) : Sat :=
  match a with
  | .yes => b ()
  | .no => .no
  | .hard => .hard

/-- `has_tuple_element<I, T>` (concepts.h:27-30): a missing `type` is an error in the immediate context. -/
def hasTupleElement (i : Nat) (t : TyInfo) : Sat := if t.elem i then .yes else .no

/-- The requires-expression (concepts.h:33-36). The type requirement names a class and does not need it to be complete; `std::same_as<...>` stands there as
an expression, whose value does not matter, and `decltype` of a variable template does not need its initializer. Satisfied for every type. -/
def requiresTupleSize (_ : TyInfo) : Sat := .yes

/-- `(has_tuple_element<I, T> && ...)` (concepts.h:38). -/
def foldElements (t : TyInfo) : List Nat → Sat
  | [] => .yes
  | i :: is => (hasTupleElement i t).and fun _ => foldElements t is

/-- `std::make_index_sequence<std::tuple_size_v<...>>()` passed to the lambda (concepts.h:37-40). The value of `std::tuple_size_v` is needed here; its
initializer is not in the immediate context. -/
def elementsCall (t : TyInfo) : Sat :=
  match t.size with
  | none => .hard
  | some n => foldElements t (List.range n)

/-- `concepts::tuple_like<T>` (concepts.h:33-41) -/
def tupleLike (t : TyInfo) : Sat := (requiresTupleSize t).and fun _ => elementsCall t

/-- Result of overload resolution: pigro's operator, the one the expression would have had without pigro's, or an ill-formed program (of bind_tuple.h:52, :56). -/
inductive Resolved where
  | pigro | other | illFormed
  deriving DecidableEq

/-- `a >> f` or `a << f`, where lookup finds pigro's operator (bind_tuple.h:52, :56): in namespace `pigro`, or by argument-dependent lookup if a
class of `pigro` occurs in the type of one of the operands. `another`: there is another viable operator, better than pigro's (whose
parameters `auto &&` make it the least specialised). Constraints are checked before candidates are compared. -/
def shiftOperator (another : Bool) (a : TyInfo) : Resolved :=
  match tupleLike a with
  | .yes => if another then .other else .pigro
  | .no => if another then .other else .illFormed
  | .hard => .illFormed

end Pigro.Con
