import Verif.Model.Handwritten
import Verif.Model.History
/-!
# Specification: two programs that do the same
-/
namespace Pigro
variable {D W E S : Type}

/-- The invocations of functions in a log. -/
def invoked (l : List (Ev D S)) : List (Ev D S) :=
  l.filter fun e => match e with
    | .call .. => true
    | .cmp .. => false

/-- Does the call return? What it returns is not looked at (`mouse_cursor();`). -/
def Obs.discard : Obs D E → Out E Unit
  | .unit => .ok ()
  | .ret o => o.map fun _ => ()
  | .polled o => o.map fun _ => ()
  | .invalid => .illFormed

/-- A program with lazy functions: definitions, then `while (true) x();` for variable number `x`. -/
def withLibrary [CxxData D] (g : Glue) (defs : List (Op D W E S)) (x : Nat) (w : W) (l : List (Option (W → W))) : Out E Unit × State D W E S :=
  whileTrue (fun s => ((step g s (.call x)).1.discard, (step g s (.call x)).2)) (fun f s => { s with env := s.env.poke f }) (run g (State.init w) defs).2 l

/-- The own state is not used up: either the callable is called in place (`byCopy = false`), or it does not change its own state. -/
def UFn.Kept (byCopy : Bool) (u : UFn D W E S) : Prop := byCopy = false ∨ ∀ s args w, (u.run s args w).2.1 = s

/-- The function never returns a `std::tuple`. -/
def UFn.NoTuple (u : UFn D W E S) : Prop := ∀ s args w v, (u.run s args w).1 = .ok v → v.asTuple = none

/-- How often function number `id` was invoked as a wrapped function, i.e. not by polling. -/
def drawn (id : Nat) (l : List (Ev D S)) : Nat :=
  l.countP fun e => match e with
    | .call .fn i _ _ _ => i == id
    | _ => false

end Pigro
