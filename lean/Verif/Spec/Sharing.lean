import Verif.Model.Sharing
import Verif.Spec.Eager
/-!
# Specification: programs with shared variables
-/
namespace Pigro
variable {D W E S : Type}

/-- The tree of an argument: `ts` those of the shared variables, `us` those of the own ones. -/
def ShArg.tree (ts us : List (Tree D W E S)) : ShArg D W E S → Option (Tree D W E S)
  | .value v => some (.value v)
  | .function u => if u.ret = .void then none else some (.function u.toFnCode)
  | .var i => us[i]?
  | .shared i => ts[i]?

/-- Several. -/
def shArgTrees (ts us : List (Tree D W E S)) : List (ShArg D W E S) → Option (List (Tree D W E S))
  | [] => some []
  | a :: as =>
    match a.tree ts us, shArgTrees ts us as with
    | some t, some l => some (t :: l)
    | _, _ => none

/-- Effect of an operation on the trees of the own variables. -/
def shStepTrees (ts us : List (Tree D W E S)) : ShOp D W E S → List (Tree D W E S)
  | .mk f deps =>
    match shArgTrees ts us deps with
    | some l => us ++ [.lazy f.toFnCode l]
    | none => us
  | .copy i =>
    match us[i]? with
    | some t => us ++ [t]
    | none => us
  | _ => us

/-- Trees of the own variables of a program. -/
def shRunTrees (ts us : List (Tree D W E S)) (ops : List (ShOp D W E S)) : List (Tree D W E S) := ops.foldl (shStepTrees ts) us

/-- The shared variables used by call exist and return values. -/
def ShArg.Fits (ts : List (Tree D W E S)) : ShArg D W E S → Prop
  | .shared i => ∃ c l, ts[i]? = some (.lazy c l) ∧ c.ret = .val
  | _ => True

/-- The same of an operation. -/
def ShOp.Fits (ts : List (Tree D W E S)) : ShOp D W E S → Prop
  | .mk _ deps => ∀ a ∈ deps, a.Fits ts
  | _ => True

/-- For programs with one lazy function of `std::ref(x_i)...`: calls of it (`none`), and use of shared variables, or changes of the world, by others. -/
def refOp [CxxData D] (g : Glue) (s0 : State D W E S) (l : Option (Use D W E S)) : XOp D (Shared g s0) E S :=
  match l with
  | none => .call 0
  | some op => .poke fun s => (s.use op.1 op.2).2

/-- Use that changes nothing that functions observe. -/
def Op.quiet {O : Type} (m : Meaning D W E S O) : Op D W E S → Prop
  | .poke h => ∀ w, m.obs (h w) = m.obs w
  | _ => True

end Pigro
