import Verif.Model.MsOffsets
/-!
# Where the state of lazy functions is stored, with the Microsoft compiler

The classes of `Model/MsLayout.lean` again, together with the offsets of everything that has bytes of its own: caches, the functions and the values given by the user.
-/
namespace Pigro.Ms
open Lay (LTree)
variable {U : Type}

/-- What is stored: `cache` (lazy.h:49), the user's function (lazy.h:99), a constant (lazy.h:84-85), and the dummy dependency of a plain function (lazy.h:89). -/
inductive Piece (U : Type) where
  | cache (res : Option U)
  | function (f : U)
  | value (v : U)
  | dummy
  deriving DecidableEq

/-- Its layout (lazy.h:49, :85, :89, :99). -/
def Types.piece (Γ : Types U) : Piece U → Layout
  | .cache res => Γ.cache res
  | .function f => Γ.layout f
  | .value v => Γ.layout v
  | .dummy => scalar 4

/-- A class, with the pieces in it and their offsets (lazy.h:46-103). -/
structure Obj (U : Type) where
  layout : Layout
  parts : List (Nat × Piece U)

/-- The parts of a subobject that may be stored at an offset (compressed_tuple.h:25-52, bind_tuple.h:20-50). -/
def placed (o : Obj U) : Option Nat → List (Nat × Piece U)
  | none => []
  | some off => o.parts.map fun r => (off + r.1, r.2)

/-- The parts of subobjects at the given offsets (compressed_tuple.h:25-52, bind_tuple.h:20-50). -/
def flat (at_ : Nat → Option Nat) (os : List (Obj U)) : List (Nat × Piece U) := os.zipIdx.flatMap fun x => placed x.1 (at_ x.2)

/-- An object of a type of the user, or a cache: nothing is stored of an empty one (compressed_tuple.h:18-23). -/
def leaf (Γ : Types U) (p : Piece U) : Obj U := ⟨Γ.piece p, if (Γ.piece p).empty then [] else [(0, p)]⟩

/-- A lambda without captures (compressed_tuple.h:20, :28, bind_tuple.h:25, :41), or `std::bool_constant` (lazy.h:85, :89). -/
def lamObj : Obj U := ⟨lam, []⟩

/-- A lambda with a capture (lazy.h:50). -/
def lamOfObj (o : Obj U) : Obj U := ⟨lamOf [o.layout], o.parts.map fun r => (memberOffset .start o.layout + r.1, r.2)⟩

/-- `compressed_tuple` (compressed_tuple.h:37-52) -/
def tupleObj (os : List (Obj U)) : Obj U := ⟨tuple true (os.map (·.layout)), flat (tupleAt true (os.map (·.layout))) os⟩

/-- What `t >> f` and `t << f` return (bind_tuple.h:20-34, :36-50). -/
def boundObj (f t : Obj U) : Obj U := ⟨bound true f.layout t.layout, flat (boundAt true f.layout t.layout) [f, t]⟩

/-- A function `(auto... ps) { return compressed_tuple{ ps... } << lambda; }` with a lambda without captures (lazy.h:69-70, :84, regular_void.h:15-16, :28-29). -/
def bindLamObj (ps : List (Obj U)) : Obj U := boundObj lamObj (tupleObj ps)

/-- `lazy_value(value, changed)` (lazy.h:69-76) -/
def lazyValueObj (v : Obj U) : Obj U := bindLamObj [v, lamObj]

/-- `detail::lazy(f, deps...)` (lazy.h:46-67) -/
def detailLazyObj (cache f : Obj U) (deps : List (Obj U)) : Obj U := boundObj (lamOfObj cache) (tupleObj (f :: deps))

/-- `unwrap_value(f)` (lazy.h:35-44): `recursive{ overload{ compressed_tuple{ f } << ..., ... } }` -/
def unwrapObj (f : Obj U) : Obj U :=
  let fs := [(bindLamObj [f]).layout, lam]
  ⟨recursive (overload true fs), match (overloadAt true fs).lookup 0 with
    | none => []
    | some o => (bindLamObj [f]).parts.map fun r => (baseOffset false .start (overload true fs) + (o + r.1), r.2)⟩

mutual
/-- What a dependency is after `ensure_lazy` (lazy.h:78-90); for a lazy function what `pigro::lazy` (lazy.h:96-103) returns. -/
def depObj (Γ : Types U) : LTree U → Obj U
  | .value v => lazyValueObj (leaf Γ (.value v))
  | .function f res => detailLazyObj (leaf Γ (.cache (some res))) (bindLamObj [leaf Γ (.function f)]) [lazyValueObj (leaf Γ .dummy)]
  | .lazy f res deps => bindLamObj [unwrapObj (detailLazyObj (leaf Γ (.cache res)) (bindLamObj [leaf Γ (.function f)]) (depObjs Γ deps))]
/-- Several dependencies (lazy.h:99). -/
def depObjs (Γ : Types U) : List (LTree U) → List (Obj U)
  | [] => []
  | t :: ts => depObj Γ t :: depObjs Γ ts
end

end Pigro.Ms
