import Verif.Spec.Eager
/-!
# Specification of effects

What the recorded invocations do to the world when run one after another, and what it means to
evaluate a list from left to right. No lazy objects involved.
-/
namespace Pigro
variable {D W E S : Type}

/-- The codes of all functions of a tree, dependencies before dependents, left to right. -/
def Tree.codes : Tree D W E S → List (FnCode D W E S)
  | .value _ => []
  | .function c => [c]
  | .lazy c deps => (deps.map Tree.codes).flatten ++ [c]

/-- `code` gives every function of the tree by its identity. -/
def Tree.CodedBy (code : Nat → FnCode D W E S) (t : Tree D W E S) : Prop :=
  ∀ c ∈ t.codes, code c.id = c

/-- Running the recorded invocations one after another, each exactly once, with the recorded arguments
and own state, leads from world `w` to world `w'` and leaves the recorded own states. -/
def Replays (code : Nat → FnCode D W E S) (w : W) : List (Ev D S) → W → Prop
  | [], w' => w' = w
  | .call _ id args seen left :: evs, w' =>
    ((code id).run seen args w).2.1 = left ∧ Replays code ((code id).run seen args w).2.2 evs w'
  | .cmp _ _ :: evs, w' => Replays code w evs w'

/-- `InOrder ev as s bs s'`: evaluating `as` one after another, left to right, from state `s`, gives the
results `bs` and the state `s'`. -/
inductive InOrder {α β σ : Type} (ev : α → σ → Out E β × σ) : List α → σ → List β → σ → Prop
  | nil (s : σ) : InOrder ev [] s [] s
  | cons {a : α} {as : List α} {b : β} {bs : List β} {s s1 s2 : σ} :
      ev a s = (.ok b, s1) → InOrder ev as s1 bs s2 → InOrder ev (a :: as) s (b :: bs) s2

end Pigro
