import Verif.Model.CompressedTuple
/-!
# apply.h, to_tuple.h
-/
namespace Pigro.Cxx
variable {B V L R : Type}

/-- Tuples `apply` can be used with: a `compressed_tuple`, or a `std::tuple` (elements with their types; where an element type is a
reference, the address is that of the object referred to) (the parameter `t` of apply.h:9, :14). -/
inductive Tup (B : Type) where
  | compressed (els : List (Elem B))
  | std (els : List (Ty B × Nat))

/-- `std::tuple_size_v<std::remove_cvref_t<decltype(t)>>` (apply.h:15; compressed_tuple.h:92-94) -/
def Tup.size : Tup B → Nat
  | .compressed els => els.length
  | .std els => els.length

/-- `get<idx>(t)` (apply.h:10): `pigro::get` (compressed_tuple.h:83-86), or `std::get`. -/
def Tup.get [DecidableEq B] (t : Tup B) (c : Bool) (cat : Cat) (i : Nat) : Got B :=
  match t with
  | .compressed els => Cxx.get els c cat i
  | .std els =>
    match els[i]? with
    | some (ty, addr) => .glvalue (access ty addr c cat)
    | none => .notViable

/-- A prvalue argument is materialised: a temporary object (language rule, for the results of compressed_tuple.h:21). -/
def materialise (Λ : Lang B V) (g : Got B) (m : Mem V L) : Option (Expr B × Mem V L) :=
  match g with
  | .glvalue e => some (e, m)
  | .prvalue b => some (⟨b, false, false, .xv, m.next⟩, m.alloc (Λ.emptyVal b))
  | _ => none

/-- The arguments `get<idx>(t)...`. They are indeterminately sequenced in C++; as they have no effects but the creation of
temporaries, only the numbering of the temporaries depends on the order (here left to right) (apply.h:10). -/
def getAll [DecidableEq B] (Λ : Lang B V) (t : Tup B) (c : Bool) (cat : Cat) : List Nat → Mem V L →
    Option (List (Expr B) × Mem V L)
  | [], m => some ([], m)
  | i :: is, m =>
    match materialise Λ (t.get c cat i) m with
    | none => none
    | some (e, m1) =>
      match getAll Λ t c cat is m1 with
      | none => none
      | some (es, m2) => some (e :: es, m2)

/-- `apply_impl(f, t, std::index_sequence<idx...>)` (apply.h:8-11): `std::invoke(f, get<idx>(t)...)`; the temporaries end their lifetime
when the call is over. `none`: ill-formed. -/
def applyImpl [DecidableEq B] (Λ : Lang B V) (f : List (Expr B) → Mem V L → R × Mem V L) (t : Tup B) (c : Bool)
    (cat : Cat) (idx : List Nat) (m : Mem V L) : Option (R × Mem V L) :=
  match getAll Λ t c cat idx m with
  | none => none
  | some (es, m1) =>
    let r := f es m1
    some (r.1, r.2.killRange m.next m1.next)

/-- `pigro::apply(f, t)` (apply.h:13-17): all indices of `std::make_index_sequence`. -/
def apply [DecidableEq B] (Λ : Lang B V) (f : List (Expr B) → Mem V L → R × Mem V L) (t : Tup B) (c : Bool)
    (cat : Cat) (m : Mem V L) : Option (R × Mem V L) :=
  applyImpl Λ f t c cat (List.range t.size) m

/-- `to_tuple(t)` (to_tuple.h:11-17): `std::forward_as_tuple` of the arguments, i.e. a `std::tuple` of references. `cat`, `c`: the argument of
`to_tuple`. -/
def toTuple [DecidableEq B] (Λ : Lang B V) (t : Tup B) (c : Bool) (cat : Cat) (m : Mem V L) :
    Option (Tup B × Mem V L) :=
  apply Λ (fun values m => (.std (values.map fun e => (declTypeFwd e, e.addr)), m)) t c cat m

end Pigro.Cxx
