import Verif.Model.Handwritten
import Verif.Model.History
/-!
# The simplified versions of `lazy` in the documentation

docs/walkthrough/call_once.md and docs/walkthrough/caching.md show versions of `lazy` for functions without dependencies, and the program they replace.
-/
namespace Pigro
variable {D W E S : Type}

/-- What `lazy` returns: docs/walkthrough/call_once.md:108-116 for a function without result, docs/walkthrough/caching.md:23-32 otherwise (`std::optional<void>` does
not exist). -/
inductive Simple (D W E S : Type) where
  | once (f : UFn D W E S) (isCalled : Bool)
  | cached (f : UFn D W E S) (cache : Option (Val D))

/-- `lazy(f)`: call_once.md:109, caching.md:24. -/
def simpleLazy (f : UFn D W E S) : Simple D W E S :=
  match f.ret with
  | .val => .cached f none
  | _ => .once f false

/-- Call: call_once.md:110-115, caching.md:26-31. An exception of `f` leaves the function before the flag or the cache is assigned. -/
def Simple.call : Simple D W E S → Env D W S → Out E (Option (Val D)) × Simple D W E S × Env D W S
  | .once f isCalled, env =>
    if isCalled then (.ok none, .once f isCalled, env)
    else
      match f.invoke .fn [] env with
      | (.ok _, f', env') => (.ok none, .once f' true, env')
      | (.error e, f', env') => (.thrown e, .once f' isCalled, env')
  | .cached f cache, env =>
    match cache with
    | some v => (.ok (some v), .cached f cache, env)
    | none =>
      match f.invoke .fn [] env with
      | (.ok v, f', env') => (.ok (some v), .cached f' (some v), env')
      | (.error e, f', env') => (.thrown e, .cached f' none, env')

/-- Programs with such functions (client code calling call_once.md:108-116, caching.md:23-32). -/
inductive SOp (D W E S : Type) where
  /-- `auto x = lazy(f);` -/
  | mk (f : UFn D W E S)
  /-- `auto y = x_i;` -/
  | copy (i : Nat)
  /-- `x_i()` -/
  | call (i : Nat)
  /-- anything else -/
  | poke (h : W → W)

/-- One operation: variables and environment afterwards (client code calling call_once.md:108-116, caching.md:23-32). -/
def simpleStep (s : List (Simple D W E S) × Env D W S) : SOp D W E S → Obs D E × List (Simple D W E S) × Env D W S
  | .mk f => (.unit, s.1 ++ [simpleLazy f], s.2)
  | .copy i =>
    match s.1[i]? with
    | some o => (.unit, s.1 ++ [o], s.2)
    | none => (.invalid, s)
  | .call i =>
    match s.1[i]? with
    | some o =>
      match o.call s.2 with
      | (r, o', env') => (.ret r, s.1.set i o', env')
    | none => (.invalid, s)
  | .poke h => (.unit, s.1, s.2.poke h)

/-- A whole program (client code, as call_once.md:84-90). -/
def simpleRun : List (Simple D W E S) × Env D W S → List (SOp D W E S) → List (Obs D E) × List (Simple D W E S) × Env D W S
  | s, [] => ([], s)
  | s, op :: ops =>
    let r := simpleStep s op
    let rs := simpleRun r.2 ops
    (r.1 :: rs.1, rs.2)

/-- The handwritten program with two flags: docs/walkthrough/call_once.md:36-39. -/
structure Flags (D W E S : Type) where
  opengl : UFn D W E S
  opencl : UFn D W E S
  isOpengl : Bool
  isOpencl : Bool

/-- One of its places (call_once.md:42-55 "at some point", :58-71 "elsewhere"), from the inside of the outer `if` to the end; `rest` is what is computed
and drawn. As documented (`fixed = false`), line 66 sets the wrong flag "elsewhere". -/
def Flags.visit (fixed elsewhere : Bool) (rest : W → W) (s : Flags D W E S) (env : Env D W S) : Out E Unit × Flags D W E S × Env D W S :=
  let first : Out E Unit × Flags D W E S × Env D W S :=
    if s.isOpengl then (.ok (), s, env)
    else
      match s.opengl.invoke .fn [] env with
      | (.ok _, f, env') => (.ok (), { s with opengl := f, isOpengl := true }, env')
      | (.error e, f, env') => (.thrown e, { s with opengl := f }, env')
  match first with
  | (.ok _, s, env) =>
    let second : Out E Unit × Flags D W E S × Env D W S :=
      if s.isOpencl then (.ok (), s, env)
      else
        match s.opencl.invoke .fn [] env with
        | (.ok _, f, env') =>
          if elsewhere && !fixed then (.ok (), { s with opencl := f, isOpengl := true }, env')
          else (.ok (), { s with opencl := f, isOpencl := true }, env')
        | (.error e, f, env') => (.thrown e, { s with opencl := f }, env')
    match second with
    | (.ok _, s, env) => (.ok (), s, env.poke rest)
    | r => r
  | r => r

/-- Visits of these places one after another; an exception ends one visit (call_once.md:42-71). -/
def Flags.visits (fixed : Bool) : Flags D W E S → Env D W S → List (Bool × (W → W)) → List (Out E Unit) × Flags D W E S × Env D W S
  | s, env, [] => ([], s, env)
  | s, env, (elsewhere, rest) :: l =>
    let r := s.visit fixed elsewhere rest env
    let rs := Flags.visits fixed r.2.1 r.2.2 l
    (r.1 :: rs.1, rs.2)

end Pigro
