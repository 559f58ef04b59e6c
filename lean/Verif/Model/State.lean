import Verif.Model.Offsets
import Verif.Model.MsState
/-!
# Where the state of lazy functions is stored, with the Itanium C++ ABI

The classes of `Model/LazyLayout.lean` again (overload.h:35-38), together with the offsets of everything that has bytes of its own. The pieces are those of `Model/MsState.lean`.
-/
namespace Pigro.Lay
open Ms (Piece)
variable {U : Type}

/-- A type, with the pieces in an object of it and their offsets (lazy.h:46-103). -/
structure Holder (U : Type) where
  part : Part (LTy U)
  parts : List (Nat × Piece U)

/-- The parts of a subobject that may be stored at an offset (compressed_tuple.h:25-52, bind_tuple.h:20-50). -/
def Holder.at_ (o : Holder U) : Option Nat → List (Nat × Piece U)
  | none => []
  | some off => o.parts.map fun r => (off + r.1, r.2)

/-- The parts of subobjects at the given offsets (compressed_tuple.h:25-52, bind_tuple.h:20-50). -/
def flatAt (offs : Nat → Option Nat) (os : List (Holder U)) : List (Nat × Piece U) := os.zipIdx.flatMap fun x => x.1.at_ (offs x.2)

variable [DecidableEq U]

/-- The layout of a piece (lazy.h:49, :85, :89, :99). -/
def Types.piece (Γ : Types U) : Piece U → Lt U
  | .cache res => Γ.cache res
  | .function f => Γ.layout f
  | .value v => Γ.layout v
  | .dummy => scalar 4

/-- An object of a type of the user, or the dummy dependency: nothing is stored of an empty one (compressed_tuple.h:18-23). -/
def leafH (Γ : Types U) (ty : LTy U) (p : Piece U) : Holder U := ⟨⟨ty, Γ.piece p⟩, if (Γ.piece p).empty then [] else [(0, p)]⟩

/-- An object of a class without members (lazy.h:38, :70, :84, :85, :89, regular_void.h:16, :29). -/
def emptyH (p : Part (LTy U)) : Holder U := ⟨p, []⟩

/-- `compressed_tuple` (compressed_tuple.h:37-52) -/
def tupleH (os : List (Holder U)) : Holder U := ⟨tuplePart false (os.map (·.part)), flatAt (tupleAt (os.map (·.part))) os⟩

/-- What `t >> f` and `t << f` return (bind_tuple.h:20-34, :36-50). -/
def boundH (back : Bool) (f t : Holder U) : Holder U := ⟨boundPart false back f.part t.part, flatAt (boundAt back f.part t.part) [f, t]⟩

/-- A function `(auto... ps) { return compressed_tuple{ ps... } << lambda; }` with a lambda without captures (lazy.h:69-70, :84, regular_void.h:15-16, :28-29). -/
def bindLamH (back : Bool) (k : LamKind) (ps : List (Holder U)) : Holder U := boundH back (emptyH (lamPart k (ps.map (·.part.ty)))) (tupleH ps)

/-- `lazy_value(value, changed)` (lazy.h:69-76) -/
def lazyValueH (v : Holder U) (changed : Bool) : Holder U := bindLamH true .value [v, emptyH (flagPart changed)]

/-- The lambda of `detail::lazy` (lazy.h:50), which captures `cache`. -/
def coreH (Γ : Types U) (ty : LTy U) (res : Option U) : Holder U := ⟨⟨ty, classLayout (.user ty) [] [Γ.cache res]⟩, [(memberOffset .start (Γ.cache res), .cache res)]⟩

/-- `detail::lazy(f, deps...)` (lazy.h:46-67) -/
def detailLazyH (Γ : Types U) (res : Option U) (f : Holder U) (deps : List (Holder U)) : Holder U :=
  boundH true (coreH Γ (.lam .core (pack ((f :: deps).map (·.part.ty)))) res) (tupleH (f :: deps))

/-- `unwrap_value(f)` (lazy.h:35-44): `recursive{ overload{ compressed_tuple{ f } << ..., ... } }` -/
def unwrapH (f : Holder U) : Holder U :=
  let b := bindLamH true .unwrapCall [f]
  let o := overloadLayout false none [.unwrapOverload f.part.ty] [b.part.layout, (lamPart .unwrapGet [f.part.ty]).layout]
  ⟨unwrapPart false f.part, b.parts.map fun r => (baseOffset .start o + (baseOffset .start b.part.layout + r.1), r.2)⟩

mutual
/-- What the dependency is after `ensure_lazy` (lazy.h:78-90); for a lazy function what `pigro::lazy` (lazy.h:96-103) returns. -/
def depH (Γ : Types U) : LTree U → Holder U
  | .value v => lazyValueH (leafH Γ (.user v) (.value v)) false
  | .function f res => detailLazyH Γ (some res) (bindLamH true .poll [leafH Γ (.user f) (.function f)]) [lazyValueH (leafH Γ .int .dummy) true]
  | .lazy f res deps =>
    bindLamH false .unregularize [unwrapH (detailLazyH Γ res (bindLamH false .regularize [leafH Γ (.user f) (.function f)]) (depHs Γ deps))]
/-- Several dependencies (lazy.h:99). -/
def depHs (Γ : Types U) : List (LTree U) → List (Holder U)
  | [] => []
  | t :: ts => depH Γ t :: depHs Γ ts
end

end Pigro.Lay
