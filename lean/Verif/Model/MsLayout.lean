import Verif.Model.LazyLayout
/-!
# Object layout with the Microsoft compiler

The project is configured for this compiler (CMakeSettings.json), and overload.h:3-33 is written for it. The rules are those of the Microsoft C++ ABI for x64, as in Clang's
`MicrosoftRecordLayoutBuilder`, for classes without virtual functions, virtual bases, bit-fields and alignment attributes:

* base classes are placed one after another, a base class taking its size without the one byte an empty class has for being an object (`nv`);
* if a base class ends with something of size zero and the next one begins with something of size zero, a byte is left between them,
* but not in a class declared with `__declspec(empty_bases)`. There an empty base class of size zero is put at offset 0;
* tail padding is not used for anything else.

Unlike in `Model/Layout.lean`, the identity of types is of no importance.
-/
namespace Pigro.Ms
open Lay (roundUp LTree)

/-- Layout of a class or scalar type. `nv`: the size as a base class; `leads`: it begins with a base class of size zero, or is itself of size zero; `ends`: likewise for its
end (language rule, for overload.h:15-33, recursive.h:11, compressed_tuple.h:37-52). -/
structure Layout where
  size : Nat
  nv : Nat
  align : Nat
  empty : Bool
  leads : Bool
  ends : Bool
  deriving DecidableEq

/-- A scalar (a reference is laid out like a pointer) (language rule, for fwd_capture.h:14). -/
def scalar (size : Nat) : Layout := ⟨size, size, size, false, false, false⟩

/-- State while a class is being laid out: size and alignment, `ends` of the base class before (if any), `leads` and `ends` so far (language rule, for overload.h:15-33, recursive.h:11, compressed_tuple.h:37-52). -/
structure Progress where
  size : Nat
  align : Nat
  prev : Option Bool
  leads : Bool
  ends : Bool

/-- Nothing placed yet (language rule, for overload.h:15-33, recursive.h:11, compressed_tuple.h:37-52). -/
def Progress.start : Progress := ⟨0, 1, none, false, false⟩

/-- The offset a base class is given. `ebo`: `__declspec(empty_bases)` (language rule, for overload.h:15-33, recursive.h:11, compressed_tuple.h:37-52). -/
def baseOffset (ebo : Bool) (p : Progress) (d : Layout) : Nat :=
  if ebo then
    if d.empty && d.nv == 0 then 0 else roundUp p.size d.align
  else if p.prev == some true && d.leads then roundUp (p.size + 1) d.align
  else roundUp p.size d.align

/-- Place a base class (language rule, for overload.h:15-33, recursive.h:11, compressed_tuple.h:37-52). -/
def placeBase (ebo : Bool) (p : Progress) (d : Layout) : Progress :=
  ⟨if ebo && d.empty && d.nv == 0 then p.size else baseOffset ebo p d + d.nv, max p.align d.align, some d.ends,
    if p.prev.isNone then d.leads else p.leads, d.ends⟩

/-- The offset a data member is given (language rule, for fwd_capture.h:14, uncapture.h:14). -/
def memberOffset (p : Progress) (d : Layout) : Nat := roundUp p.size d.align

/-- Place a data member. (Whether a scalar member resets `ends` is of no importance here: no class below has a base class and a scalar member, except `T2` of empty_object.h, which
is no part of anything.) -/
def placeMember (p : Progress) (d : Layout) : Progress :=
  ⟨memberOffset p d + d.size, max p.align d.align, p.prev, p.leads, d.ends⟩

/-- `struct name : bases... { members... };`, with `ebo` declared with `__declspec(empty_bases)`. A class of size zero is given the size of its alignment (language rule, for overload.h:15-33, recursive.h:11, compressed_tuple.h:37-52). -/
def classLayout (ebo : Bool) (bases members : List Layout) : Layout :=
  let p := members.foldl placeMember (bases.foldl (placeBase ebo) .start)
  let nv := roundUp p.size p.align
  let empty := members.isEmpty && bases.all (·.empty)
  let zero := nv == 0 && !(ebo && empty)
  ⟨if nv = 0 then p.align else nv, nv, p.align, empty, zero || p.leads, zero || p.ends⟩

/-- A class without bases and members: a lambda without captures (compressed_tuple.h:20, :28, bind_tuple.h:25, :41). -/
def lam : Layout := classLayout false [] []

/-- A lambda with captures (compressed_tuple.h:31, lazy.h:50). -/
def lamOf (captures : List Layout) : Layout := classLayout false [] captures

/-- `std::tuple<T>` in the library of this compiler: derived from `std::tuple<>`, with a member of class type that has a member of type `T` (fwd_capture.h:14). -/
def stdTuple (d : Layout) : Layout := classLayout false [classLayout false [] []] [classLayout false [] [d]]

/-- `overload<Fs...>` (overload.h:15-33): derived from `overload_impl` of the reordered types, both declared with `__declspec(empty_bases)`; the specialisation for no types is not.
`ebo` is `true` in the code; `false`: what it would be without the declarations. -/
def overload (ebo : Bool) (fs : List Layout) : Layout :=
  if fs.isEmpty then classLayout false [] []
  else classLayout ebo [classLayout ebo (TL.partitionT (·.empty) fs) []] []

/-- `recursive<F>` (recursive.h:10-11) -/
def recursive (f : Layout) : Layout := classLayout false [f] []

/-- The class returned by `compressed_tuple_element<tag>` (compressed_tuple.h:18-23 for empty types, :25-35 otherwise). -/
def element (ebo : Bool) (d : Layout) : Layout := if d.empty then lam else overload ebo [lam, lamOf [stdTuple d]]

/-- `compressed_tuple<Ts...>` (compressed_tuple.h:37-52). -/
def tuple (ebo : Bool) (ds : List Layout) : Layout := classLayout false [recursive (overload ebo (ds.map (element ebo)))] []

/-- What `t >> f` and `t << f` return (bind_tuple.h:20-34, :36-50). -/
def bound (ebo : Bool) (f t : Layout) : Layout := recursive (overload ebo [element ebo f, element ebo t, lam])

/-- `Uncaptured<T, tag>`: with a member (uncapture.h:12-18), or, for an empty type, without (uncapture.h:20-25). -/
def uncaptured (v : Layout) : Layout := if v.empty then classLayout false [] [] else classLayout false [] [v]

/-- `uncaptured(vs...) >> f` (uncapture.h:27-41, :54-71): `CompressedInvocable<Uncaptured<T, tag>, F, tag>` around what the remaining values give. Not declared with
`__declspec(empty_bases)`; with `ebo`: what it would be if it were. -/
def uncapture (ebo : Bool) (f : Layout) : List Layout → Layout
  | [] => f
  | v :: vs => classLayout ebo [uncaptured v, uncapture ebo f vs] []

/-! ### lazy.h, regular_void.h -/

variable {U : Type}

/-- The layouts of the user's types, and of `std::optional` of them (the `f` and `deps` of lazy.h:96, and lazy.h:49). -/
structure Types (U : Type) where
  layout : U → Layout
  optional : U → Layout

/-- `std::optional<result_t>` (lazy.h:49); `none`: `std::optional<regular_void>`, a class with one member of type `bool` (regular_void.h:46-47). -/
def Types.cache (Γ : Types U) : Option U → Layout
  | some u => Γ.optional u
  | none => classLayout false [] [scalar 1]

/-- A function `(auto... ps) { return compressed_tuple{ ps... } << lambda; }` with a lambda without captures (lazy.h:69-70, :84, regular_void.h:15-16, :28-29). -/
def bindLam (ps : List Layout) : Layout := bound true lam (tuple true ps)

/-- `std::bool_constant<b>` (lazy.h:85, :89) -/
def flag : Layout := classLayout false [] []

/-- `lazy_value(value, changed)` (lazy.h:69-76) -/
def lazyValue (v : Layout) : Layout := bindLam [v, flag]

/-- `detail::lazy(f, deps...)` (lazy.h:46-67): the lambda captures `cache`. -/
def detailLazy (cache f : Layout) (deps : List Layout) : Layout := bound true (lamOf [cache]) (tuple true (f :: deps))

/-- `unwrap_value(f)` (lazy.h:35-44): `recursive{ overload{ compressed_tuple{ f } << ..., ... } }` -/
def unwrap (f : Layout) : Layout := recursive (overload true [bindLam [f], lam])

mutual
/-- What a dependency is after `ensure_lazy` (lazy.h:78-90); for a lazy function the type `pigro::lazy` (lazy.h:96-103) returns: `unregularized_void(unwrap_value(detail::lazy(
regularized_void(f), deps...)))`. `int` has size 4. -/
def dep (Γ : Types U) : LTree U → Layout
  | .value v => lazyValue (Γ.layout v)
  | .function f res => detailLazy (Γ.cache (some res)) (bindLam [Γ.layout f]) [lazyValue (scalar 4)]
  | .lazy f res deps => bindLam [unwrap (detailLazy (Γ.cache res) (bindLam [Γ.layout f]) (depList Γ deps))]
/-- Several dependencies (lazy.h:99). -/
def depList (Γ : Types U) : List (LTree U) → List Layout
  | [] => []
  | t :: ts => dep Γ t :: depList Γ ts
end

/-! ### empty_object.h -/

/-- `empty_object<T>::T2` (empty_object.h:13-15): `struct T2 : T { char c; };` -/
def t2 (t : Layout) : Layout := classLayout false [t] [scalar 1]

/-- Offset of the base class `T` in `T2` (empty_object.h:13). -/
def t2Base (t : Layout) : Nat := baseOffset false .start t

/-- Offset of `c` in `T2` (empty_object.h:14). -/
def t2Member (t : Layout) : Nat := memberOffset (placeBase false .start t) (scalar 1)

/-- Size of `union Storage` (empty_object.h:17-21); `T1` is a class with a `char`. -/
def storageSize (t : Layout) : Nat := roundUp (max (classLayout false [] [scalar 1]).size (t2 t).size) (max (classLayout false [] [scalar 1]).align (t2 t).align)

/-- `empty_object<T>::get()` (empty_object.h:23-32) with its `storage` at address `a`: the address `t` of the object that is copied. -/
def getAddress (t : Layout) (a : Nat) : Nat :=
  let c := a + t2Member t   -- &storage.t2.c
  let t2 := c               -- reinterpret_cast<const T2 *>(c)
  t2 + t2Base t             -- static_cast<const T *>(t2)

end Pigro.Ms
