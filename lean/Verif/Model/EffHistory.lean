import Verif.Model.History
import Verif.Model.LazyEff
/-!
# Client programs whose result types have comparisons and copies that have effects and may throw

The programs of `Model/History.lean`, run with the calls of `Model/LazyEff.lean`. Making and copying lazy functions is as there (captures of
values are still taken to be copied without effect).
-/
namespace Pigro.Eff
variable {D W E S : Type}

/-- As `Pigro.State` (client code calling lazy.h:96-103). -/
structure State (D W E S : Type) where
  vars : List (Obj D W E S)
  env : Env D W E S

/-- As `Pigro.step`: construction by `pigro::lazy` (lazy.h:96-103), copies, calls without arguments and with `nullptr` (lazy.h:35-44), and anything else. -/
def step [CxxData D] (g : Glue) (ops : Ops D W E) (s : State D W E S) : Op D W E S → Obs D E × State D W E S
  | .mk f deps =>
    match (resolveAll s.vars deps).bind (pigroLazy f) with
    | some o => (.unit, { s with vars := s.vars ++ [o] })
    | none => (.invalid, s)
  | .copy i =>
    match s.vars[i]? with
    | some o => (.unit, { s with vars := s.vars ++ [o] })
    | none => (.invalid, s)
  | .call i =>
    match s.vars[i]? with
    | some o =>
      match call0 g ops o s.env with
      | (r, o', env') => (.ret r, { vars := s.vars.set i o', env := env' })
    | none => (.invalid, s)
  | .poll i =>
    match s.vars[i]? with
    | some o =>
      match evalN g ops o s.env with
      | (r, o', env') => (.polled r, { vars := s.vars.set i o', env := env' })
    | none => (.invalid, s)
  | .poke h => (.unit, { s with env := { s.env with w := h s.env.w } })

/-- As `Pigro.run` (client code calling lazy.h:96-103). -/
def run [CxxData D] (g : Glue) (ops : Ops D W E) : State D W E S → List (Op D W E S) → List (Obs D E) × State D W E S
  | s, [] => ([], s)
  | s, op :: rest =>
    let r := step g ops s op
    let rs := run g ops r.2 rest
    (r.1 :: rs.1, rs.2)

/-- As `Pigro.State.init` (client code calling lazy.h:96-103). -/
def State.init (w : W) : State D W E S := ⟨[], ⟨w, []⟩⟩

end Pigro.Eff
