import Verif.Spec.Sugar
/-!
# Specification: functions that always return the same

docs/walkthrough/dependencies.md: `auto arrow = [] { return load_image("arrow.png"); };` as dependency, "even though this image might not change".
-/
namespace Pigro
variable {D W E S : Type}

/-- Which functions are known always to return the same, and what that is. -/
abbrev Constants (D W E S : Type) : Type := FnCode D W E S → Option (Val D)

/-- They do: the value, which is not different from itself, without any effect but on their own state. -/
def Constants.Right [CxxData D] (κ : Constants D W E S) : Prop :=
  ∀ c v, κ c = some v → c.ret = v.retTy ∧ Val.ne v v = false ∧ ∀ s w, ∃ s', c.run s [] w = (.ok v, s', w)

/-- The value instead of the function. -/
def ArgRef.settle (κ : Constants D W E S) : ArgRef D W E S → ArgRef D W E S
  | .function u => match κ u.toFnCode with
    | some v => .value v
    | none => .function u
  | a => a

/-- The program with values instead of functions that always return the same. -/
def Op.settle (κ : Constants D W E S) : Op D W E S → Op D W E S
  | .mk f deps => .mk f (deps.map (·.settle κ))
  | op => op

/-- The second list is the first one without some elements, all of which have the property `P`. -/
inductive Without {α : Type} (P : α → Prop) : List α → List α → Prop where
  | nil : Without P [] []
  | keep (a : α) {l l' : List α} : Without P l l' → Without P (a :: l) (a :: l')
  | drop (a : α) {l l' : List α} : P a → Without P l l' → Without P (a :: l) l'

/-- A call of such a function as a plain dependency, or a comparison of what it returned with what it returned before. -/
def Constants.Redundant (κ : Constants D W E S) (e : Ev D S) : Prop :=
  ∃ c v, κ c = some v ∧ ((∃ s s', e = .call .dep c.id [] s s') ∨ e = .cmp v v)

/-- How often a function was called, as a plain dependency or by a lazy function. -/
def loads (id : Nat) (l : List (Ev D S)) : Nat :=
  l.countP fun e => match e with
    | .call _ i _ _ _ => i == id
    | _ => false

/-- One iteration of the loop (dependencies.md:29-31) that calls variable `x`, or something that happens between iterations. -/
def frame (x : Nat) : Option (W → W) → Op D W E S
  | none => .call x
  | some h => .poke h

end Pigro
