import Verif.Model.CallOnce
import Verif.Spec.Handwritten
/-!
# Specification: the same programs with the library
-/
namespace Pigro
variable {D W E S : Type}

/-- The same operation with the library. -/
def SOp.withLibrary : SOp D W E S → Op D W E S
  | .mk f => .mk f []
  | .copy i => .copy i
  | .call i => .call i
  | .poke h => .poke h

/-- The functions a program wraps. -/
def SOp.fns : List (SOp D W E S) → List (UFn D W E S)
  | [] => []
  | .mk f :: l => f :: SOp.fns l
  | _ :: l => SOp.fns l

/-- call_once.md:84-90 and :93-99, with `ensure_initialized_opengl` and `ensure_initialized_opencl` (lines 80-81) as variables 0 and 1. -/
def ensureVisit [CxxData D] (g : Glue) (rest : W → W) (s : State D W E S) : Out E Unit × State D W E S :=
  let r := step g s (.call 0)
  match r.1.discard with
  | .ok _ =>
    let q := step g r.2 (.call 1)
    match q.1.discard with
    | .ok _ => (.ok (), { q.2 with env := q.2.env.poke rest })
    | o => (o, q.2)
  | o => (o, r.2)

/-- Visits one after another. -/
def ensureVisits [CxxData D] (g : Glue) : State D W E S → List (Bool × (W → W)) → List (Out E Unit) × State D W E S
  | s, [] => ([], s)
  | s, (_, rest) :: l =>
    let r := ensureVisit g rest s
    let rs := ensureVisits g r.2 l
    (r.1 :: rs.1, rs.2)

end Pigro
