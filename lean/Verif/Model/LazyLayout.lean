import Verif.Model.Layout
/-!
# Object layout of lazy functions: lazy.h, regular_void.h

The types of the objects made by `pigro::lazy`, with their layouts, composed from those of bind_tuple.h and compressed_tuple.h. `int` has size 4.
-/
namespace Pigro.Lay
variable {U : Type}

/-- The lambdas of lazy.h and regular_void.h. -/
inductive LamKind where
  | unwrapCall   -- lazy.h:38
  | unwrapGet    -- lazy.h:39
  | core         -- lazy.h:50
  | value        -- lazy.h:70
  | poll         -- lazy.h:84
  | regularize   -- regular_void.h:16
  | unregularize -- regular_void.h:29
  deriving DecidableEq

/-- The types that occur; `U`: those of the user. `nil`, `cons`: packs. `lam`: the type of a lambda, which depends on the template arguments of
the function it is in (`ts`). `unwrap`: what `unwrap_value` returns, `unwrapOverload` its base class (lazy.h:35-103, regular_void.h:15-39). -/
inductive LTy (U : Type) where
  | user (u : U)
  | int
  | boolConstant (b : Bool)
  | optionalRegularVoid
  | nil
  | cons (t ts : LTy U)
  | lam (k : LamKind) (ts : LTy U)
  | tuple (ts : LTy U)
  | bound (back : Bool) (f t : LTy U)
  | unwrap (f : LTy U)
  | unwrapOverload (f : LTy U)
  deriving DecidableEq

/-- A pack of types (the `deps` of lazy.h:46, :96). -/
def pack : List (LTy U) → LTy U
  | [] => .nil
  | t :: ts => .cons t (pack ts)

/-- Layouts (of the types of lazy.h:35-103). -/
abbrev Lt (U : Type) := Layout (Name (LTy U))

/-- The layouts of the user's types, and of `std::optional` of them (the `f` and `deps` of lazy.h:96, and lazy.h:49). -/
structure Types (U : Type) where
  layout : U → Lt U
  optional : U → Lt U

/-- A type of the user (the `f` and `deps` of lazy.h:96). -/
def Types.part (Γ : Types U) (u : U) : Part (LTy U) := ⟨.user u, Γ.layout u⟩

/-- `std::optional<result_t>` (lazy.h:49); `none`: `std::optional<regular_void>`, a class with one member of type `bool`
(regular_void.h:46-47). -/
def Types.cache [DecidableEq U] (Γ : Types U) : Option U → Lt U
  | some u => Γ.optional u
  | none => classLayout (.user .optionalRegularVoid) [] [scalar 1]

variable [DecidableEq U]

/-- A lambda without captures (lazy.h:38, :70, :84, regular_void.h:16, :29). -/
def lamPart (k : LamKind) (ts : List (LTy U)) : Part (LTy U) := ⟨.lam k (pack ts), classLayout (.user (.lam k (pack ts))) [] []⟩

/-- `compressed_tuple{ ps... }` (lazy.h:38, :50, :70, :84, regular_void.h:16, :29) -/
def tuplePart (msvc : Bool) (ps : List (Part (LTy U))) : Part (LTy U) := ⟨.tuple (pack (ps.map (·.ty))), tupleLayout msvc ps⟩

/-- `t >> f`, `t << f` for temporaries (lazy.h:38, :50, :70, :84, regular_void.h:16, :29). -/
def boundPart (msvc back : Bool) (f t : Part (LTy U)) : Part (LTy U) := ⟨.bound back f.ty t.ty, boundLayout msvc back f t⟩

/-- A function `(auto... ps) { return compressed_tuple{ ps... } << lambda; }` with a lambda without captures (lazy.h:69-70, :84, regular_void.h:15-16, :28-29). -/
def bindLam (msvc back : Bool) (k : LamKind) (ps : List (Part (LTy U))) : Part (LTy U) :=
  boundPart msvc back (lamPart k (ps.map (·.ty))) (tuplePart msvc ps)

/-- `regularized_void(f)` (regular_void.h:15-26) -/
def regularizedPart (msvc : Bool) (f : Part (LTy U)) : Part (LTy U) := bindLam msvc false .regularize [f]

/-- `unregularized_void(f)` (regular_void.h:28-39) -/
def unregularizedPart (msvc : Bool) (f : Part (LTy U)) : Part (LTy U) := bindLam msvc false .unregularize [f]

/-- `std::bool_constant<b>` (lazy.h:85, :89) -/
def flagPart (b : Bool) : Part (LTy U) := ⟨.boolConstant b, classLayout (.user (.boolConstant b)) [] []⟩

/-- `int` (lazy.h:85) -/
def intPart : Part (LTy U) := ⟨.int, scalar 4⟩

/-- `lazy_value(value, changed)` (lazy.h:69-76) -/
def lazyValuePart (msvc : Bool) (v : Part (LTy U)) (changed : Bool) : Part (LTy U) := bindLam msvc true .value [v, flagPart changed]

/-- `detail::lazy(f, deps...)` (lazy.h:46-67): the lambda captures `cache` (`f` and `deps` are not captured: in the lambda the names are those of its
parameters). -/
def detailLazyPart (msvc : Bool) (cache : Lt U) (f : Part (LTy U)) (deps : List (Part (LTy U))) : Part (LTy U) :=
  let ty : LTy U := .lam .core (pack ((f :: deps).map (·.ty)))
  boundPart msvc true ⟨ty, classLayout (.user ty) [] [cache]⟩ (tuplePart msvc (f :: deps))

/-- `unwrap_value(f)` (lazy.h:35-44): `recursive{ overload{ compressed_tuple{ f } << ..., ... } }` -/
def unwrapPart (msvc : Bool) (f : Part (LTy U)) : Part (LTy U) :=
  ⟨.unwrap f.ty, classLayout (.user (.unwrap f.ty))
    [overloadLayout msvc none [.unwrapOverload f.ty] [(bindLam msvc true .unwrapCall [f]).layout, (lamPart .unwrapGet [f.ty]).layout]] []⟩

/-- The types of lazy functions and of what can be passed to `pigro::lazy` as a dependency: a value; a plain function with its result type; a lazy
function of `f`, with its result type (`none`: `void` or `regular_void`), and dependencies (lazy.h:78-103). -/
inductive LTree (U : Type) where
  | value (v : U)
  | function (f res : U)
  | lazy (f : U) (res : Option U) (deps : List (LTree U))

mutual
/-- What the dependency is after `ensure_lazy` (lazy.h:78-90). For a lazy function this is the lazy function itself, so this is the type
`pigro::lazy` (lazy.h:96-103) returns. -/
def depPart (Γ : Types U) (msvc : Bool) : LTree U → Part (LTy U)
  | .value v => lazyValuePart msvc (Γ.part v) false
  | .function f res => detailLazyPart msvc (Γ.cache (some res)) (bindLam msvc true .poll [Γ.part f]) [lazyValuePart msvc intPart true]
  | .lazy f res deps =>
    unregularizedPart msvc (unwrapPart msvc (detailLazyPart msvc (Γ.cache res) (regularizedPart msvc (Γ.part f)) (depParts Γ msvc deps)))
/-- Several dependencies (lazy.h:99). -/
def depParts (Γ : Types U) (msvc : Bool) : List (LTree U) → List (Part (LTy U))
  | [] => []
  | t :: ts => depPart Γ msvc t :: depParts Γ msvc ts
end

end Pigro.Lay
