import Verif.Model.Lazy
/-!
# Reentrancy: a wrapped function that calls the lazy function it belongs to

The wrapped function may hold a reference to the lazy function it was passed to (a captured reference to a variable that is assigned later, a global, …) and call it
while it runs itself. `lazy.h` has no guard against this: the nested call finds the object in whatever state the outer call has left it so far. In the order of lazy.h:51-65
that is: dependencies evaluated, cache not yet assigned. What the outer call does with the object after the nested one has changed it, is modelled here as well: lazy.h:58
compares with the cache as it is *then*.
-/
namespace Pigro.Re

/-- What a wrapped function does when invoked: it finishes with a value or an exception, its own state and the world; or it has so far reached a state and a world in
which it calls the lazy function it belongs to, without arguments, and goes on with the answer (`none`: `void`; exceptions can be caught) (the `f` of lazy.h:96). -/
inductive Body (D W E S : Type) where
  | done (r : Except E (Val D)) (st : S) (w : W)
  | again (st : S) (w : W) (k : Except E (Option (Val D)) → S → W → Body D W E S)

/-- A user callable (compare `UFn`) whose code may call the lazy function it is wrapped by (the `f` of lazy.h:96). -/
structure RFn (D W E S : Type) where
  id : Nat
  ret : RetTy
  body : S → List (Val D) → W → Body D W E S
  st : S

/-- The state of `lazy(f, deps...)` (lazy.h:96-103): the object made by `detail::lazy` (lazy.h:46-67); the two facades around it have no state. -/
structure Node (D W E S : Type) where
  f : RFn D W E S
  cache : Cache D
  deps : List (Obj D W E S)

variable {D W E S : Type}

/-- A facade works on a copy of the object (regular_void.h:29, lazy.h:38). -/
def copiesAll (g : Glue) : Bool := g.facadeParamByValue || g.unwrapParamByValue
/-- The dependencies in the object do not see their evaluation (additionally lazy.h:50). -/
def copiesDeps (g : Glue) : Bool := copiesAll g || g.coreParamsByValue
/-- The cache in the object does not see the assignment (additionally bind_tuple.h:46). -/
def copiesCache (g : Glue) : Bool := copiesAll g || g.bindFrontCopies
/-- The function in the object does not see its invocation (additionally regular_void.h:16). -/
def copiesFn (g : Glue) : Bool := copiesDeps g || g.regParamByValue

/-- Run the wrapped function; `self` is the nested call of the lazy function, which finds it in its current state. Undefined behaviour of a nested call is undefined
behaviour. `none`: a nested call does not end (regular_void.h:16-25, called at lazy.h:56). -/
def runBody (g : Glue) (self : Node D W E S → Env D W S → Option (Out E (Option (Val D)) × Node D W E S × Env D W S)) :
    Body D W E S → Node D W E S → Env D W S → Option (Out E (Val D) × S × Node D W E S × Env D W S)
  | .done (.ok v) st w, x, env => some (.ok v, st, x, { env with w := w })
  | .done (.error e) st w, x, env => some (.thrown e, st, x, { env with w := w })
  | .again st w k, x, env =>
    match self { x with f := { x.f with st := keep (copiesFn g) x.f.st st } } { env with w := w } with
    | some (.ok v, x', env') => runBody g self (k (.ok v) (keep (copiesFn g) st x'.f.st) env'.w) x' env'
    | some (.thrown e, x', env') => runBody g self (k (.error e) (keep (copiesFn g) st x'.f.st) env'.w) x' env'
    | some (.ub, x', env') => some (.ub, st, x', env')
    | some (.illFormed, x', env') => some (.illFormed, st, x', env')
    | none => none

/-- The value that `self(nullptr).value` (lazy.h:40) copies out of `*cache` (lazy.h:62-65), if it can still be read there; `none` for a `void` function
(regular_void.h:32-35). -/
def answer (g : Glue) (cache : Cache D) : Out E (Option (Val D)) :=
  match cache.deref with
  | none => .ub
  | some v =>
    if g.coreLive cache && !(g.resultByRef && g.unwrapParamByValue) then
      .ok (match cache with
        | .rv _ => none
        | .opt _ => some v)
    else .ub

/-- Calling `lazy(f, deps...)` without arguments (lazy.h:39-41, regular_void.h:29-38) with at most `n` nested levels of calls; `none` if there are more. The order is that
of lazy.h:51-65: evaluate the dependencies, decide, run `f`, compare with the cache as it is now, assign it, read it. The event of an invocation is logged when the
invocation ends. -/
def call [CxxData D] (g : Glue) : Nat → Node D W E S → Env D W S → Option (Out E (Option (Val D)) × Node D W E S × Env D W S)
  | 0, _, _ => none
  | n + 1, x, env =>
    match evalDeps g x.deps env with
    | (.ok rs, deps', env1) =>
      let x1 := { x with deps := keep (copiesDeps g) x.deps deps' }
      if !x.cache.engaged || any LazyRes.isChanged rs then
        match readValues rs with
        | none => some (.ub, x1, env1)
        | some args =>
          match runBody g (call g n) (x.f.body x.f.st args env1.w) x1 env1 with
          | none => none
          | some (o, st, x2, env2) =>
            let x3 := { x2 with f := { x2.f with st := keep (copiesFn g) x2.f.st st } }
            let env3 := { env2 with log := env2.log ++ [.call .fn x.f.id args x.f.st st] }
            match o with
            | .ok v =>
              let result := x.f.ret.regularize v
              let cache' := x2.cache.assign result
              some (answer g cache', { x3 with cache := keep (copiesCache g) x2.cache cache' },
                { env3 with log := env3.log ++ cmpEvents x2.cache result })
            | o => some (o.map (fun _ => none), x3, env3)
      else some (answer g x.cache, x1, env1)
    | (o, deps', env1) => some (o.map (fun _ => none), { x with deps := keep (copiesDeps g) x.deps deps' }, env1)

/-- `lazy(f, deps...)` (lazy.h:96-103) with the dependencies `deps` after `ensure_lazy`: an empty cache, nothing evaluated. -/
def make (f : RFn D W E S) (deps : List (Obj D W E S)) : Node D W E S := ⟨f, Cache.empty f.ret, deps⟩

end Pigro.Re
