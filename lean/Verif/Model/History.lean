import Verif.Model.Lazy
/-!
# Client programs

A client program is a sequence of operations on variables holding lazy functions. This is the
environment in which the code of lazy.h is used; it fixes what "every history" means.
-/
namespace Pigro
variable {D W E S : Type}

/-- A dependency as written in a client program: a value, a plain function, or a lazy variable
(passed by value, `auto... deps` lazy.h:96, hence copied). -/
inductive ArgRef (D W E S : Type) where
  | value (v : Val D)
  | function (u : UFn D W E S)
  | var (i : Nat)

/-- Client operations (client code calling lazy.h:96-103). -/
inductive Op (D W E S : Type) where
  /-- `auto x = pigro::lazy(f, deps...);` -/
  | mk (f : UFn D W E S) (deps : List (ArgRef D W E S))
  /-- `auto y = x_i;` -/
  | copy (i : Nat)
  /-- `x_i()` -/
  | call (i : Nat)
  /-- `x_i(nullptr)` -/
  | poll (i : Nat)
  /-- anything else the program does to the world the functions observe -/
  | poke (h : W → W)

/-- What an operation returns to the client. `invalid`: the operation does not compile (client code calling lazy.h:96-103). -/
inductive Obs (D E : Type) where
  | unit
  | ret (o : Out E (Option (Val D)))
  | polled (o : Out E (LazyRes D))
  | invalid

/-- Variables and environment (client code calling lazy.h:96-103). -/
structure State (D W E S : Type) where
  vars : List (Obj D W E S)
  env : Env D W S

/-- Copy the argument into the by-value parameter of `pigro::lazy` (lazy.h:96). -/
def ArgRef.resolve (vars : List (Obj D W E S)) : ArgRef D W E S → Option (DepArg D W E S)
  | .value v => some (.value v)
  | .function u => some (.function u)
  | .var i => vars[i]?.map .lazyObj

/-- All arguments of one `pigro::lazy` call (lazy.h:96). -/
def resolveAll (vars : List (Obj D W E S)) :
    List (ArgRef D W E S) → Option (List (DepArg D W E S))
  | [] => some []
  | a :: as =>
    match a.resolve vars, resolveAll vars as with
    | some d, some ds => some (d :: ds)
    | _, _ => none

/-- One client operation (client code calling lazy.h:96-103). -/
def step [CxxData D] (g : Glue) (s : State D W E S) : Op D W E S → Obs D E × State D W E S
  | .mk f deps =>
    match (resolveAll s.vars deps).bind (pigroLazy f) with
    | some o => (.unit, { s with vars := s.vars ++ [o] })
    | none => (.invalid, s)
  | .copy i =>
    match s.vars[i]? with
    | some o => (.unit, { s with vars := s.vars ++ [o] })
    | none => (.invalid, s)
  | .call i =>
    match s.vars[i]? with
    | some o =>
      match call0 g o s.env with
      | (r, o', env') => (.ret r, { vars := s.vars.set i o', env := env' })
    | none => (.invalid, s)
  | .poll i =>
    match s.vars[i]? with
    | some o =>
      match evalN g o s.env with
      | (r, o', env') => (.polled r, { vars := s.vars.set i o', env := env' })
    | none => (.invalid, s)
  | .poke h => (.unit, { s with env := { s.env with w := h s.env.w } })

/-- A whole program: outputs in order, final state (client code calling lazy.h:96-103). -/
def run [CxxData D] (g : Glue) : State D W E S → List (Op D W E S) →
    List (Obs D E) × State D W E S
  | s, [] => ([], s)
  | s, op :: ops =>
    let r := step g s op
    let rs := run g r.2 ops
    (r.1 :: rs.1, rs.2)

/-- The initial state: no variables, some world, nothing logged (client code calling lazy.h:96-103). -/
def State.init (w : W) : State D W E S := ⟨[], ⟨w, []⟩⟩

end Pigro
