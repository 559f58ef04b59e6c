import Verif.Spec.Remember
/-!
# Specification: programs that cannot be told apart

What can be seen of a program: the answers it gets, the world it leaves, and those events one cares for.
-/
namespace Pigro.Rfc
variable {D W E S : Type}

/-- What can be done with a single variable: calling it, calling it with `nullptr`, and changing the world in between. -/
inductive Test (W : Type) where
  | call | poll
  | poke (h : W → W)

/-- ... with variable `i`. -/
def Test.on (i : Nat) : Test W → Op D W E S
  | .call => .call i
  | .poll => .poll i
  | .poke h => .poke h

/-- The same answers, worlds, and events of interest. -/
def Looks (care : Ev D S → Bool) (x y : List (Obs D E) × State D W E S) : Prop :=
  x.1 = y.1 ∧ x.2.env.w = y.2.env.w ∧ x.2.env.log.filter care = y.2.env.log.filter care

/-- The function always returns `φ` of its arguments, without any effect but on its own state. -/
def Computes (f : UFn D W E S) (φ : List (Val D) → Val D) : Prop :=
  ∀ s vs w, ∃ s', f.run s vs w = (.ok (φ vs), s', w)

/-- Equal values (in the sense of `operator!=`) are equal to `φ`, and what it returns is equal to itself. -/
def Respects [CxxData D] (ret : RetTy) (φ : List (Val D) → Val D) : Prop :=
  (∀ a b, Val.ne a b = false → φ (Rem.spread [a]) = φ (Rem.spread [b])) ∧
  ∀ vs, Val.ne (ret.regularize (φ vs)) (ret.regularize (φ vs)) = false

/-- First `u`, then `φ`: one function instead of two. -/
def after (k : Nat) (ret : RetTy) (φ : List (Val D) → Val D) (u : UFn D W E S) : UFn D W E S :=
  ⟨⟨k, ret, fun s vs w => ((u.run s vs w).1.map fun v => φ (Rem.spread [u.ret.regularize v]), (u.run s vs w).2)⟩, u.st⟩

/-- Results are values; and a lazy function keeps its last result in itself only if it keeps its dependencies there, too, or keeps nothing at all. -/
def Fuses (g : Glue) : Prop :=
  g.resultByRef = false ∧ (g.coreParamsByValue = false ∨ g.bindFrontCopies = true ∨ g.unwrapParamByValue = true ∨ g.facadeParamByValue = true)

instance (g : Glue) : Decidable (Fuses g) := by unfold Fuses; infer_instance

/-- The calls of all functions but those with the given numbers. -/
def callsOfOthers (ks : List Nat) : Ev D S → Bool
  | .call _ id _ _ _ => !ks.contains id
  | .cmp _ _ => false

end Pigro.Rfc
