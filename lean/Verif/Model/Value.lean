/-!
# Values, outcomes and comparisons

The value universe shared by the model, and the two forms of `std::optional` used as cache.
-/
namespace Pigro

/-- C++ values flowing through lazy functions.
`data` is a value of an ordinary user type, `rvoid` the value of `pigro::regular_void`
(regular_void.h:11-13), `tup` a `std::tuple` (tuples matter because class template argument
deduction treats them specially, see `tupleCTAD`).
Simplification: static types are erased; a `std::pair`, which `std::tuple{p}` also unpacks, counts
as a `tup`. -/
inductive Val (D : Type) where
  | data (d : D)
  | rvoid
  | tup (vs : List (Val D))

/-- What the code needs from the user's data type: `operator!=` (lazy.h:58) and the `int` literal
`0` passed by `ensure_lazy` (lazy.h:85).
Simplification: the operator is a pure function that does not throw. -/
class CxxData (D : Type) where
  ne : D → D → Bool
  zero : D

mutual
/-- `operator!=` on values.
* user data: the user's `operator!=`;
* `regular_void`: `operator<=>` is defaulted on an empty class (regular_void.h:12), all values equal;
* `std::tuple`: element-wise.
Simplifications: `!(a == b)` inside tuples is taken to be `a != b`; comparing values of different
static types does not compile, here it yields `true` (never reached by well-typed programs). -/
def Val.ne {D : Type} [CxxData D] : Val D → Val D → Bool
  | .data a, .data b => CxxData.ne a b
  | .rvoid, .rvoid => false
  | .tup as, .tup bs => Val.neList as bs
  | _, _ => true
/-- Element-wise part of `Val.ne` (standard library, for lazy.h:58). -/
def Val.neList {D : Type} [CxxData D] : List (Val D) → List (Val D) → Bool
  | [], [] => false
  | a :: as, b :: bs => Val.ne a b || Val.neList as bs
  | _, _ => true
end

/-- Outcome of evaluating a C++ expression: a value, an exception, undefined behaviour, or "this
expression does not compile" (made an outcome so that it cannot be confused with success) (of every call of lazy.h:35-103). -/
inductive Out (E α : Type) where
  | ok (a : α)
  | thrown (e : E)
  | ub
  | illFormed

namespace Out
variable {E α β : Type}

/-- Continue with a pure function on success; failures propagate unchanged (language rule, for lazy.h:50-66). -/
def map (f : α → β) : Out E α → Out E β
  | ok a => ok (f a)
  | thrown e => thrown e
  | ub => ub
  | illFormed => illFormed

/-- The evaluation produced a value (of every call of lazy.h:35-103). -/
def isOk : Out E α → Bool
  | ok _ => true
  | _ => false

end Out

/-- Return types of user functions, as far as the code inspects them
(`std::same_as<result_t, void>` regular_void.h:19, `std::same_as<result_t, regular_void>`
regular_void.h:32, and the `std::optional<regular_void>` specialisation regular_void.h:46). -/
inductive RetTy where
  | void
  | rvoid
  | val
  deriving DecidableEq

/-- `std::optional<pigro::regular_void>` (regular_void.h:45-72): only the flag `engaged`. -/
structure OptRV where
  engaged : Bool
  deriving DecidableEq

namespace OptRV
/-- `optional() = default;` with `bool engaged = false;` (regular_void.h:47, 50) -/
def default : OptRV := ⟨false⟩
/-- `optional(pigro::regular_void) : engaged{ true }` (regular_void.h:51) -/
def ofRV : OptRV := ⟨true⟩
/-- `operator=(pigro::regular_void) { engaged = true; }` (regular_void.h:53-56) -/
def assign (_ : OptRV) : OptRV := ⟨true⟩
/-- `explicit operator bool() const { return engaged; }` (regular_void.h:58) -/
def toBool (o : OptRV) : Bool := o.engaged
/-- `operator*() const { return regular_void{}; }` (regular_void.h:59): defined for a disengaged
optional too. -/
def deref (_ : OptRV) : Unit := ()
/-- `operator==` (regular_void.h:61-65) -/
def eq (l r : OptRV) : Bool := l.engaged == r.engaged
/-- `operator!=` (regular_void.h:67-71) -/
def ne (l r : OptRV) : Bool := l.engaged != r.engaged
end OptRV

/-- The variable `cache` of `detail::lazy` (lazy.h:49): `std::optional<result_t>`, which is the
specialisation `OptRV` when `result_t` is `regular_void`. -/
inductive Cache (D : Type) where
  | opt (o : Option (Val D))
  | rv (o : OptRV)

namespace Cache
variable {D : Type}

/-- `std::optional<result_t>{}` (lazy.h:49). `regularized_void` has turned `void` into
`regular_void` (regular_void.h:19-21). -/
def empty : RetTy → Cache D
  | .val => opt none
  | .void => rv OptRV.default
  | .rvoid => rv OptRV.default

/-- contextual conversion to `bool`, the `!cache` of lazy.h:53 -/
def engaged : Cache D → Bool
  | opt o => o.isSome
  | rv o => o.toBool

/-- `cache != result` (lazy.h:58). For the primary template this is
`operator!=(const optional<T>&, const U&)`: `true` when disengaged, else `*cache != result`.
For `optional<regular_void>` the right operand is converted with the constructor of
regular_void.h:51 and the flags are compared (regular_void.h:67). -/
def ne [CxxData D] : Cache D → Val D → Bool
  | opt none, _ => true
  | opt (some c), r => Val.ne c r
  | rv o, _ => OptRV.ne o OptRV.ofRV

/-- `cache = std::move(result)` (lazy.h:59) -/
def assign : Cache D → Val D → Cache D
  | opt _, r => opt (some r)
  | rv o, _ => rv o.assign

/-- `*cache` (lazy.h:63). `none` stands for the undefined behaviour of dereferencing a disengaged
`std::optional`; `optional<regular_void>` is always dereferenceable. -/
def deref : Cache D → Option (Val D)
  | opt o => o
  | rv _ => some .rvoid

end Cache

end Pigro
