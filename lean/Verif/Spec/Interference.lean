import Verif.Spec.Replay
import Verif.Model.History
/-!
# Parts of a program that do not interfere

`R w w'` says that the worlds `w` and `w'` look the same to one part of a program.
-/
namespace Pigro
variable {D W E S : Type}

/-- The function does nothing that can be noticed through `R`. -/
def FnCode.Unseen (R : W → W → Prop) (c : FnCode D W E S) : Prop :=
  ∀ st args w, R w (c.run st args w).2.2

/-- The function depends on the world only as far as it can be seen through `R`: in worlds that look the same it returns or throws the same, leaves the same own state, and
the worlds look the same afterwards. -/
def FnCode.SeesOnly (R : W → W → Prop) (c : FnCode D W E S) : Prop :=
  ∀ st args w w', R w w' → (c.run st args w).1 = (c.run st args w').1 ∧ (c.run st args w).2.1 = (c.run st args w').2.1 ∧
    R (c.run st args w).2.2 (c.run st args w').2.2

/-- The operations that concern the variables in `ours`: evaluations of them and outside changes of the world. -/
def Op.concerns (ours : Nat → Bool) : Op D W E S → Bool
  | .call i => ours i
  | .poll i => ours i
  | .poke _ => true
  | _ => false

/-- What is observed of each operation of a program: the operation, what it returned, and which events happened during it. -/
def observed [CxxData D] (g : Glue) : State D W E S → List (Op D W E S) → List (Op D W E S × Obs D E × List (Ev D S))
  | _, [] => []
  | s, op :: ops => (op, (step g s op).1, (step g s op).2.env.log.drop s.env.log.length) :: observed g (step g s op).2 ops

end Pigro
