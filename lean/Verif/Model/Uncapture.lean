/-!
# uncapture.h

`uncaptured(v...) >> f`. `T` are value types, `V` values, `R` results, `S` the own state of callables.
-/
namespace Pigro.Unc
variable {T V R S : Type}

/-- A value to be uncaptured: its type, whether that type is empty, and the value.
`detail::Uncaptured<T>` (uncapture.h:12-25). -/
structure Uncaptured (T V : Type) where
  ty : T
  isEmpty : Bool
  value : V

/-- User code. Called non-const: result, own state afterwards and the values of all arguments
afterwards (by position; arguments are references). Called const: result only (the `F` of uncapture.h:27). -/
structure Code (V R S : Type) where
  run : S → List V → R × S × (Nat → V)
  runConst : S → List V → R

/-- Callables: a user callable, or `CompressedInvocable<Uncaptured<T, tag>, F, tag>`
(uncapture.h:27-41). -/
inductive Cal (T V R S : Type) where
  | fn (code : Code V R S) (st : S)
  | ci (tag : Nat) (u : Uncaptured T V) (f : Cal T V R S)

/-- `unique_tag_v<F>` (uncapture.h:43-52): the tag of a `CompressedInvocable`, otherwise 0. -/
def Cal.uniqueTag : Cal T V R S → Nat
  | .fn _ _ => 0
  | .ci tag _ _ => tag

/-- `operator>>(Uncaptured<T> u, F f)` (uncapture.h:54-58). The value is copied with `get_value()`. -/
def shift (u : Uncaptured T V) (f : Cal T V R S) : Cal T V R S :=
  .ci (f.uniqueTag + 1) u f

/-- `operator>>(mytuple<T> values_, F f)` (uncapture.h:65-71): the binary right fold
`(values >> ... >> f)`. -/
def shiftAll : List (Uncaptured T V) → Cal T V R S → Cal T V R S
  | [], f => f
  | u :: us, f => shift u (shiftAll us f)

/-- What `uncaptured(...)` returns (uncapture.h:77-83): one `Uncaptured` for one value, `mytuple`
otherwise. -/
inductive UArg (T V : Type) where
  | one (u : Uncaptured T V)
  | many (us : List (Uncaptured T V))

/-- `uncaptured(values...)` (uncapture.h:77-83). For one value both overloads are viable and the
non-variadic one, being more specialised, is chosen. -/
def uncaptured : List (Uncaptured T V) → UArg T V
  | [u] => .one u
  | us => .many us

/-- `uncaptured(values...) >> f` (uncapture.h:54-71, :77-83) -/
def UArg.shift : UArg T V → Cal T V R S → Cal T V R S
  | .one u, f => Unc.shift u f
  | .many us, f => shiftAll us f

/-- Non-const call (uncapture.h:36-38): `F::operator()(args..., U::get_value())`, where `get_value()` is a
reference to the stored value (uncapture.h:17), or, for an empty type, a temporary (uncapture.h:24).
Returns the result, the callable afterwards, and the call arguments afterwards. -/
def Cal.call : Cal T V R S → List V → R × Cal T V R S × (Nat → V)
  | .fn code st, args =>
    let r := code.run st args
    (r.1, .fn code r.2.1, r.2.2)
  | .ci tag u f, args =>
    let r := f.call (args ++ [u.value])
    (r.1, .ci tag (if u.isEmpty then u else { u with value := r.2.2 args.length }) r.2.1, r.2.2)

/-- Const call (uncapture.h:32-34). -/
def Cal.callConst : Cal T V R S → List V → R
  | .fn code st, args => code.runConst st args
  | .ci _ u f, args => f.callConst (args ++ [u.value])

/-- Class types, as far as bases are concerned: a user type with given bases (a lambda has none;
`overload`, `recursive` and user classes may have some), or
`CompressedInvocable<Uncaptured<T, tag>, F, tag>` with its bases `Uncaptured<T, tag>` and `F`
(uncapture.h:27-29). -/
inductive CTy (T : Type) where
  | user (bases : List (CTy T))
  | ci (tag : Nat) (ty : T) (f : CTy T)

/-- `unique_tag_v<F>` (uncapture.h:43-52) -/
def CTy.uniqueTag : CTy T → Nat
  | .user _ => 0
  | .ci tag _ _ => tag

/-- The type of `uncaptured(v) >> f` (uncapture.h:54-58) -/
def CTy.shift (ty : T) (f : CTy T) : CTy T := .ci (f.uniqueTag + 1) ty f

/-- The type of `uncaptured(v...) >> f` (uncapture.h:65-71) -/
def CTy.shiftAll : List T → CTy T → CTy T
  | [], f => f
  | ty :: tys, f => CTy.shift ty (CTy.shiftAll tys f)

/-- All base classes of the form `Uncaptured<T, tag>`, direct and indirect (uncapture.h:27-29). -/
def CTy.storage : CTy T → List (T × Nat)
  | .user bases => (bases.map CTy.storage).flatten
  | .ci tag ty f => (ty, tag) :: f.storage

end Pigro.Unc
