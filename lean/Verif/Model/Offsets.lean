import Verif.Model.CallableLayout
import Verif.Model.EmptyObject
/-!
# Where values are stored: compressed_tuple.h, bind_tuple.h, uncapture.h

Offsets of base classes and members in the classes of `Model/Layout.lean` (Itanium C++ ABI; overload.h:35-38), down to the values the user has given.
-/
namespace Pigro.Lay
variable {T N : Type}

/-- Offsets of base classes, one after another (language rule, for overload.h:36). -/
def offsets [DecidableEq N] : Progress N → List (Layout N) → List Nat
  | _, [] => []
  | p, d :: ds => baseOffset p d :: offsets (placeBase p d) ds

/-- `value` in what `compressed_tuple_element<tag>` returns for a type that is not empty: a member of the closure of the second lambda (compressed_tuple.h:31), itself a `std::tuple`
(fwd_capture.h:14). -/
def valueAt [DecidableEq T] (tag : Nat) (p : Part T) : Nat :=
  let tuple := classLayout (.stdTuple p.ty) [] [p.layout]
  baseOffset (placeBase .start (classLayout (.constGet tag p.ty) [] [])) (classLayout (.mutGet tag p.ty) [] [tuple]) + (memberOffset .start tuple + memberOffset .start p.layout)

/-- The value with index `i` in an overload set that begins with the elements of `parts` and continues with `rest`: `none` if there is none, or if its type is empty
(compressed_tuple.h:18-35: nothing is stored). -/
def storedAt [DecidableEq T] (parts : List (Part T)) (rest : List (Layout (Name T))) (i : Nat) : Option Nat :=
  match parts[i]?, (offsets .start ((parts.zipIdx.map fun p => elementLayout p.2 p.1) ++ rest))[i]? with
  | some p, some o => if p.layout.empty then none else some (o + valueAt i p)
  | _, _ => none

/-- What `get<i>` refers to in a `compressed_tuple` (compressed_tuple.h:25-52, recursive.h:10-11): its offset. -/
def tupleAt [DecidableEq T] (parts : List (Part T)) (i : Nat) : Option Nat :=
  let ts := parts.map (·.ty)
  let o := overloadLayout false none ts (parts.zipIdx.map fun p => elementLayout p.2 p.1)
  (storedAt parts [] i).map fun x => baseOffset .start (classLayout (.recursive none ts) [o] []) + (baseOffset .start o + x)

/-- The callable (`0`) and the tuple (`1`) of what `t >> f` and `t << f` return (bind_tuple.h:20-34, :36-50). -/
def boundAt [DecidableEq T] (back : Bool) (f t : Part T) (i : Nat) : Option Nat :=
  let generic := classLayout (.generic back f.ty t.ty) [] []
  let o := overloadLayout false (some back) [f.ty, t.ty] [elementLayout 0 f, elementLayout 1 t, generic]
  (storedAt [f, t] [generic] i).map fun x => baseOffset .start o + x

/-- The value with index `i` of `uncaptured(vs...) >> f` (uncapture.h:12-18, :27-41, :54-71), for `i` the number of values: `f`. -/
def uncaptureAt [DecidableEq T] (fTag : Nat) (f : UPart T) : List (UPart T) → Nat → Nat
  | [], _ => 0
  | v :: vs, 0 => baseOffset .start (uncapturedLayout (fTag + vs.length + 1) v) + memberOffset .start v.layout
  | v :: vs, i + 1 => baseOffset (placeBase .start (uncapturedLayout (fTag + vs.length + 1) v)) (uncaptureLayout fTag f vs) + uncaptureAt fTag f vs i

end Pigro.Lay
