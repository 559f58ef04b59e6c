import Verif.Model.Layout
/-!
# Object layout of `overload{ f... }`, `recursive{ f }` and `uncaptured(v...) >> f` with callables of the user

By the same rules as `Model/Layout.lean`.
-/
namespace Pigro.Lay
variable {T : Type}

/-- `overload{ fs... }` (overload.h:35-38; with `msvc`, overload.h:15-30). -/
def overloadOf [DecidableEq T] (msvc : Bool) (fs : List (Part T)) : Layout (Name T) :=
  overloadLayout msvc none (fs.map (·.ty)) (fs.map (·.layout))

/-- `recursive{ f }` (recursive.h:10-11) -/
def recursiveOf [DecidableEq T] (f : Part T) : Layout (Name T) :=
  classLayout (.recursive none [f.ty]) [f.layout] []

/-- The classes of uncapture.h: `Uncaptured<T, tag>` and `CompressedInvocable<..., F, tag>`; `user`: any other. -/
inductive UName (T : Type) where
  | user (t : T)
  | uncaptured (t : T) (tag : Nat)
  | invocable (tag : Nat) (ts : List T)
  deriving DecidableEq

/-- A type with its layout (the `T` of uncapture.h:12-25, compressed_tuple.h:18-35). -/
structure UPart (T : Type) where
  ty : T
  layout : Layout (UName T)

/-- `Uncaptured<T, tag>`: with a member (uncapture.h:12-18), or, for an empty type, without (uncapture.h:20-25). -/
def uncapturedLayout [DecidableEq T] (tag : Nat) (v : UPart T) : Layout (UName T) :=
  if v.layout.empty then classLayout (.uncaptured v.ty tag) [] [] else classLayout (.uncaptured v.ty tag) [] [v.layout]

/-- `uncaptured(vs...) >> f` (uncapture.h:27-41, :54-71): `CompressedInvocable<Uncaptured<T, tag>, F, tag>` around what the remaining values give, the
tag being one more than there. `fTag`: `unique_tag_v<F>` (uncapture.h:43-52) of the callable itself. -/
def uncaptureLayout [DecidableEq T] (fTag : Nat) (f : UPart T) : List (UPart T) → Layout (UName T)
  | [] => f.layout
  | v :: vs =>
    let tag := fTag + vs.length + 1
    classLayout (.invocable tag (f.ty :: v.ty :: vs.map (·.ty))) [uncapturedLayout tag v, uncaptureLayout fTag f vs] []

end Pigro.Lay
