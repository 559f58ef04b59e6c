import Verif.Spec.Constants
/-!
# Specification: all constants written into the function
-/
namespace Pigro.Rfc
variable {D W E S : Type}

/-- The dependencies that are not constants. -/
def varying : List (ArgRef D W E S) → List (ArgRef D W E S)
  | [] => []
  | .value _ :: deps => varying deps
  | d :: deps => d :: varying deps

/-- The arguments of the function: constants in their places, the given values in all others. -/
def fillIn : List (ArgRef D W E S) → List (Val D) → List (Val D)
  | [], _ => []
  | .value v :: deps, xs => v :: fillIn deps xs
  | _ :: _, [] => []
  | _ :: deps, x :: xs => x :: fillIn deps xs

/-- `h` is `f` with all constants among the dependencies filled in. (A `std::tuple` that is the only argument is spread, also by `f`.) -/
def FillsIn (h f : UFn D W E S) (deps : List (ArgRef D W E S)) : Prop :=
  h.ret = f.ret ∧ h.st = f.st ∧ ∀ s xs w, xs.length = (varying deps).length → h.run s (Rem.spread xs) w = f.run s (Rem.spread (fillIn deps xs)) w

/-- For any `f` there is such a function, unless a single argument may be spread. -/
def filledIn (k : Nat) (f : UFn D W E S) (deps : List (ArgRef D W E S)) : UFn D W E S :=
  ⟨⟨k, f.ret, fun s xs w => f.run s (fillIn deps xs) w⟩, f.st⟩

end Pigro.Rfc
