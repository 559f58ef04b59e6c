/-!
# tuple_algorithms.h, apply.h, pack_algorithms.h

Tuples are lists (heterogeneous element types are erased). Functions passed by the user may have
effects: they are state transformers `α → σ → β × σ`, so that number and order of invocations can
be stated.
-/
namespace Pigro

/-- `std::tuple{ x0, ..., xn }` with class template argument deduction, as used by `transform`
(tuple_algorithms.h:10). `asTuple x` tells whether `x` is itself a `std::tuple` (then its elements).
For one argument that is a `std::tuple`, the copy deduction candidate wins and the result is a copy
of that tuple, not a tuple containing it. -/
def tupleCTAD {β : Type} (asTuple : β → Option (List β)) : List β → List β
  | [x] => match asTuple x with
    | some vs => vs
    | none => [x]
  | xs => xs

/-- Evaluation of a braced pack expansion `{ g(args)... }`: left to right (C++20 [dcl.init.list]/4) (tuple_algorithms.h:10, lazy.h:51). -/
def mapState {α β σ : Type} (g : α → σ → β × σ) : List α → σ → List β × σ
  | [], s => ([], s)
  | a :: as, s =>
    let (b, s1) := g a s
    let (bs, s2) := mapState g as s1
    (b :: bs, s2)

/-- `pigro::transform(data, projection)` (tuple_algorithms.h:8-13):
`std::apply([=](const auto &...args) { return std::tuple{ projection(args)... }; }, data)`. -/
def transformS {α β σ : Type} (asTuple : β → Option (List β)) (projection : α → σ → β × σ)
    (data : List α) (s : σ) : List β × σ :=
  let (xs, s') := mapState projection data s
  (tupleCTAD asTuple xs, s')

/-- `transform` with a projection without effects (tuple_algorithms.h:8-13). -/
def transform {α β : Type} (asTuple : β → Option (List β)) (projection : α → β) (data : List α) :
    List β :=
  (transformS asTuple (fun a (_ : Unit) => (projection a, ())) data ()).1

/-- `pigro::any(data, predicate)` (tuple_algorithms.h:15-21): the unary right fold
`(predicate(args) || ...)`, i.e. `p(a0) || (p(a1) || (... || p(an)))`; `false` for an empty pack.
`||` evaluates its right operand only if the left one is `false`. -/
def anyS {α σ : Type} (predicate : α → σ → Bool × σ) : List α → σ → Bool × σ
  | [], s => (false, s)
  | a :: as, s =>
    match predicate a s with
    | (true, s1) => (true, s1)
    | (false, s1) => anyS predicate as s1

/-- `any` with a predicate without effects (tuple_algorithms.h:15-21). -/
def any {α : Type} (predicate : α → Bool) (data : List α) : Bool :=
  (anyS (fun a (_ : Unit) => (predicate a, ())) data ()).1

end Pigro
