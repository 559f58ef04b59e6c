/-!
# partition.h

Types are elements of an arbitrary type `T`; `typelist<Ts...>` is a list. A trait
(`template<typename> class Trait`) is a function `T → Bool` (its `::value`).
-/
namespace Pigro.TL
variable {T : Type}

/-- `operator+(typelist<Ts...>, typelist<Us...>)` (partition.h:20-27) -/
def plus (ts us : List T) : List T := ts ++ us

/-- `concat(typelists...)` (partition.h:29-32): the binary right fold
`(typelists + ... + typelist<>{})`, i.e. `l0 + (l1 + (... + (ln + typelist<>{})))`. -/
def concat : List (List T) → List T
  | [] => []
  | l :: ls => plus l (concat ls)

/-- `Predicate<Trait, is_negated>` (partition.h:68-82) -/
structure Predicate (T : Type) where
  trait : T → Bool
  isNegated : Bool

/-- `Predicate::operator()(type_<T>)` (partition.h:73-77) -/
def Predicate.call (p : Predicate T) (t : T) : Bool :=
  if p.isNegated then !p.trait t else p.trait t

/-- `Predicate::operator!()` (partition.h:79-81) -/
def Predicate.not (p : Predicate T) : Predicate T := ⟨p.trait, !p.isNegated⟩

/-- `predicate<Trait>` (partition.h:84-85) -/
def predicate (trait : T → Bool) : Predicate T := ⟨trait, false⟩

/-- `filter_if(typelist<T>, predicate)` (partition.h:34-45), the overload for exactly one type. -/
def filterOne (t : T) (p : Predicate T) : List T :=
  if p.call t then [t] else []

/-- `filter_if(typelist<Ts...>, predicate)` (partition.h:47-55). For a list of exactly one type both
overloads are viable and the first, being more specialised, is chosen; otherwise only the variadic one
is viable. -/
def filterIf (ts : List T) (p : Predicate T) : List T :=
  match ts with
  | [t] => filterOne t p
  | ts => concat (ts.map fun t => filterOne t p)

/-- `partition(typelist<Ts...>, predicate)` (partition.h:57-66): `concat` of the two pack expansions. -/
def partition (ts : List T) (p : Predicate T) : List T :=
  concat ((ts.map fun t => filterIf [t] p) ++ (ts.map fun t => filterIf [t] p.not))

/-- `partition_t<Trait, T...>` (partition.h:87-88) -/
def partitionT (trait : T → Bool) (ts : List T) : List T := partition ts (predicate trait)

end Pigro.TL
