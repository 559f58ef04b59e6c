import Verif.Model.Layout
/-!
# empty_object.h

`empty_object<T>::get()` makes a value of an empty type `T` without a constructor: it forms the address of a member of a `T2` (derived from `T`) inside
a union and casts it to the base class `T`. Addresses are numbers; objects are laid out as in `Model/Layout.lean`. (That no `T2` object lives in the
union, of which `t1` is the active member, is not modelled: by the letter of C++ the copy of `*t` is undefined behaviour for this reason alone.)
-/
namespace Pigro.Lay
variable {N : Type} [DecidableEq N]

/-- The offset `placeBase` gives a base class (language rule, for empty_object.h:13). -/
def baseOffset (p : Progress N) (d : Layout N) : Nat :=
  let next := search p.placed d.empties d.align (attempts p.placed) (roundUp p.dsize d.align)
  if d.empty then (if conflict p.placed d.empties 0 then next else 0) else next

/-- The offset `placeMember` gives a data member (language rule, for empty_object.h:11, :14). -/
def memberOffset (p : Progress N) (d : Layout N) : Nat :=
  search p.placed d.empties d.align (attempts p.placed) (roundUp p.dsize d.align)

/-- Nothing placed yet (language rule, for empty_object.h:10-15). -/
def Progress.start : Progress N := ⟨0, 0, 1, []⟩

/-- Names of the classes involved (empty_object.h:9-21). -/
inductive EName (N : Type) where
  | user (n : N)
  | t1
  | t2
  deriving DecidableEq

/-- `empty_object<T>::T1` (empty_object.h:10-12): `struct T1 { char c; };` -/
def t1Layout : Layout (EName N) := classLayout .t1 [] [scalar 1]

/-- `empty_object<T>::T2` (empty_object.h:13-15): `struct T2 : T { char c; };` -/
def t2Layout (t : Layout (EName N)) : Layout (EName N) := classLayout .t2 [t] [scalar 1]

/-- Offset of the base class `T` in `T2` (empty_object.h:13). -/
def t2Base (t : Layout (EName N)) : Nat := baseOffset .start t

/-- Offset of `c` in `T2` (empty_object.h:14). -/
def t2Member (t : Layout (EName N)) : Nat := memberOffset (placeBase .start t) (scalar 1)

/-- Alignment of `union Storage` (empty_object.h:17-21). -/
def storageAlign (t : Layout (EName N)) : Nat := max (t1Layout (N := N)).align (t2Layout t).align

/-- Size of `union Storage` (empty_object.h:17-21). -/
def storageSize (t : Layout (EName N)) : Nat := roundUp (max (t1Layout (N := N)).size (t2Layout t).size) (storageAlign t)

/-- `empty_object<T>::get()` (empty_object.h:23-32) with its `storage` at address `a`: the address `t` of the object that is copied. -/
def getAddress (t : Layout (EName N)) (a : Nat) : Nat :=
  let c := a + t2Member t   -- &storage.t2.c
  let t2 := c               -- reinterpret_cast<const T2 *>(c)
  t2 + t2Base t             -- static_cast<const T *>(t2)

end Pigro.Lay
