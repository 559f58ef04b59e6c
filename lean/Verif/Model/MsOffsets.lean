import Verif.Model.MsLayout
/-!
# Where values are stored with the Microsoft compiler

Offsets of base classes and members in the classes of `Model/MsLayout.lean`, down to the values the user has given.
-/
namespace Pigro.Ms

/-- Offsets of base classes, one after another (language rule, for overload.h:15-33). -/
def offsets (ebo : Bool) : Progress → List Layout → List Nat
  | _, [] => []
  | p, d :: ds => baseOffset ebo p d :: offsets ebo (placeBase ebo p d) ds

/-- The callables of `overload<Fs...>` (overload.h:15-33): position in `Fs`, and offset. Empty types come first in `overload_impl`. -/
def overloadAt (ebo : Bool) (fs : List Layout) : List (Nat × Nat) :=
  let order := TL.partitionT (fun x : Layout × Nat => x.1.empty) fs.zipIdx
  let impl := classLayout ebo (order.map (·.1)) []
  ((order.map (·.2)).zip (offsets ebo .start (order.map (·.1)))).map fun x => (x.1, baseOffset ebo .start impl + x.2)

/-- `value` in what `compressed_tuple_element<tag>` returns for a type that is not empty: a member of the closure of the second lambda (compressed_tuple.h:31), itself a `std::tuple`
(fwd_capture.h:14) with a member around the value, after a base class. -/
def valueAt (ebo : Bool) (d : Layout) : Option Nat :=
  ((overloadAt ebo [lam, lamOf [stdTuple d]]).lookup 1).map fun o =>
    o + (memberOffset .start (stdTuple d) + (memberOffset (placeBase false .start lam) (classLayout false [] [d]) + memberOffset .start d))

/-- The value with index `i` of an overload set of elements: `none` if there is none, or if its type is empty (compressed_tuple.h:18-35: nothing is stored). -/
def storedAt (ebo : Bool) (ds : List Layout) (fs : List Layout) (i : Nat) : Option Nat :=
  match ds[i]? with
  | none => none
  | some d =>
    if d.empty then none
    else match (overloadAt ebo fs).lookup i, valueAt ebo d with
      | some o, some v => some (o + v)
      | _, _ => none

/-- What `get<i>` refers to in a `compressed_tuple` (compressed_tuple.h:25-52, recursive.h:10-11): its offset. -/
def tupleAt (ebo : Bool) (ds : List Layout) (i : Nat) : Option Nat :=
  let fs := ds.map (element ebo)
  (storedAt ebo ds fs i).map fun o => baseOffset false .start (recursive (overload ebo fs)) + (baseOffset false .start (overload ebo fs) + o)

/-- The callable (`0`) and the tuple (`1`) of what `t >> f` and `t << f` return (bind_tuple.h:20-34, :36-50). -/
def boundAt (ebo : Bool) (f t : Layout) (i : Nat) : Option Nat :=
  let fs := [element ebo f, element ebo t, lam]
  (storedAt ebo [f, t] fs i).map fun o => baseOffset false .start (overload ebo fs) + o

/-- The value with index `i` of `uncaptured(vs...) >> f` (uncapture.h:12-18, :27-41, :54-71), for `i` the number of values: `f`. -/
def uncaptureAt (ebo : Bool) (f : Layout) : List Layout → Nat → Nat
  | [], _ => 0
  | v :: _, 0 => baseOffset ebo .start (uncaptured v) + memberOffset .start v
  | v :: vs, i + 1 => baseOffset ebo (placeBase ebo .start (uncaptured v)) (uncapture ebo f vs) + uncaptureAt ebo f vs i

end Pigro.Ms
