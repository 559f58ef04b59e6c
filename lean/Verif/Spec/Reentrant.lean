import Verif.Spec.Eager
import Verif.Model.Reentrant
/-!
# What is said about wrapped functions that call their own lazy function
-/
namespace Pigro.Re
variable {D W E S O : Type}

/-- The function finishes without having called its own lazy function. -/
def RFn.Plain (f : RFn D W E S) : Prop := ∀ st args w, ∃ r st' w', f.body st args w = .done r st' w'

/-- Whatever it is given, the function calls its own lazy function before it does anything else than computing. -/
def RFn.Asks (f : RFn D W E S) : Prop := ∀ st args w, ∃ st' w' k, f.body st args w = .again st' w' k

/-- A function that does not call its own lazy function, as an ordinary one. -/
def RFn.plain (f : RFn D W E S) : UFn D W E S where
  id := f.id
  ret := f.ret
  run st args w := match f.body st args w with
    | .done r st' w' => (r, st', w')
    | .again st' w' _ => (.ok .rvoid, st', w')
  st := f.st

/-- The object of the model without reentrancy. -/
def Node.obj (x : Node D W E S) : Obj D W E S := .unregularized (.unwrapped (.core (.regularized x.f.plain) x.cache x.deps))

/-- What plain functions observe of the world stays `ob` while the function runs, provided it does so while others run. -/
inductive Calm (m : Meaning D W E S O) (ob : O) : Body D W E S → Prop
  | done (r : Except E (Val D)) (st : S) (w : W) : m.obs w = ob → Calm m ob (.done r st w)
  | again (st : S) (w : W) (k : Except E (Option (Val D)) → S → W → Body D W E S) :
      m.obs w = ob → (∀ a st' w', m.obs w' = ob → Calm m ob (k a st' w')) → Calm m ob (.again st w k)

/-- The function's run when each call of its own lazy function returns `a`, leaves the function's own state alone and leaves alone what plain functions observe of the
world. -/
inductive Answered (m : Meaning D W E S O) (a : Option (Val D)) : Body D W E S → Except E (Val D) → S → W → Prop
  | done (r : Except E (Val D)) (st : S) (w : W) : Answered m a (.done r st w) r st w
  | again (st : S) (w w' : W) (k : Except E (Option (Val D)) → S → W → Body D W E S) (r : Except E (Val D)) (st' : S) (w'' : W) :
      m.obs w' = m.obs w → Answered m a (k (.ok a) st w') r st' w'' → Answered m a (.again st w k) r st' w''

/-- `y` is `x` some calls later, whatever has happened to the world in between. -/
inductive Later [CxxData D] (g : Glue) : Node D W E S → Node D W E S → Prop
  | refl (x : Node D W E S) : Later g x x
  | call {x y y' : Node D W E S} (n : Nat) (env env' : Env D W S) (o : Out E (Option (Val D))) :
      Later g x y → call g n y env = some (o, y', env') → Later g x y'

/-- The functions of the dependencies behave according to `m`, reads of their results are defined, and a single dependency is not a tuple. -/
structure Deps (g : Glue) (m : Meaning D W E S O) (us : List (Tree D W E S)) : Prop where
  ok : ∀ t ∈ us, TreeOk g m t
  lone : ∀ t, us = [t] → ∀ o vs, m.eager o t ≠ .tup vs

/-- `as` are arguments of `lazy` in the program after `ops`, `us` what they are and `ds` what becomes of them (lazy.h:99). -/
def Made [CxxData D] (g : Glue) (w : W) (ops : List (Op D W E S)) (as : List (ArgRef D W E S)) (us : List (Tree D W E S)) (ds : List (Obj D W E S)) : Prop :=
  argTrees (runTrees [] ops) as = some us ∧ (resolveAll (run g (State.init w) ops).2.vars as).bind ensureAll = some ds

/-- The result the user gets for the value `v` of a function with return type `ret`. -/
def result (ret : RetTy) (v : Val D) : Option (Val D) := if ret = .val then some v else none

/-- The outcome for a value or an exception of the function. -/
def outcome (ret : RetTy) : Except E (Val D) → Out E (Option (Val D))
  | .ok v => .ok (result ret v)
  | .error e => .thrown e

end Pigro.Re
