import Verif.Model.History
/-!
# The first documented design of `lazy`

docs/walkthrough/dependencies.md:37-50 (again docs/walkthrough/comparisons.md:25-38): besides its own `cache`, every lazy function keeps a
`dependencies_cache`, the arguments it was last evaluated with, and compares all of them on every call. The library replaced it by the design of
lazy.h:46-67, in which dependencies report whether they have changed. Values as dependencies are functions that return them
(docs/walkthrough/syntactic_sugar.md:15-25; there wrapped in another `lazy`, which is left out here: its function only returns the value).
-/
namespace Pigro

/-- Function objects of the first design: the dependencies (a value, a plain function) and the closure returned by `lazy` (dependencies.md:41) with its
captured variables `f`, `cache`, `dependencies_cache`, `dependencies`. Simplifications: `cache` is the `Cache` of lazy.h:49, i.e. `void` results are
regularized as in lazy.h:98; `dependencies_cache` holds the values of the dependencies before `std::tuple{...}` unpacks a lone tuple (comparing that
tuple, or its elements one after another, is the same). -/
inductive DObj (D W E S : Type) where
  | value (v : Val D)
  | function (u : UFn D W E S)
  | lazy (f : UFn D W E S) (cache : Cache D) (dependenciesCache : Option (List (Val D))) (dependencies : List (DObj D W E S))

variable {D W E S : Type}

/-- `args != dependencies_cache` (dependencies.md:43). -/
def argsNe [CxxData D] (args : List (Val D)) : Option (List (Val D)) → Bool
  | none => true
  | some old => Val.neList args old

/-- The comparisons made by `args != dependencies_cache`: element by element until two differ (also of two `regular_void`) (dependencies.md:43). -/
def argsCmps [CxxData D] : List (Val D) → List (Val D) → List (Ev D S)
  | a :: as, b :: bs => .cmp a b :: if Val.ne a b then [] else argsCmps as bs
  | _, _ => []

/-- `!cache || args != dependencies_cache` (dependencies.md:43): the comparisons, none if `!cache`. -/
def conditionCmps [CxxData D] (cache : Cache D) (args : List (Val D)) : Option (List (Val D)) → List (Ev D S)
  | none => []
  | some old => if cache.engaged then argsCmps args old else []

mutual
/-- Calling a function object of the first design (dependencies.md:41-49). The closure is called in place. -/
def DObj.call [CxxData D] : DObj D W E S → Env D W S → Out E (Val D) × DObj D W E S × Env D W S
  | .value v, env => (.ok v, .value v, env)
  | .function u, env =>
    match u.invoke .dep [] env with
    | (.ok v, u', env') => (.ok (u.ret.regularize v), .function u', env')
    | (.error e, u', env') => (.thrown e, .function u', env')
  | .lazy f cache dc deps, env =>
    match DObj.callAll deps env with
    | (.ok vs, deps', env1) =>
      let env2 := { env1 with log := env1.log ++ conditionCmps cache vs dc }
      if !cache.engaged || argsNe vs dc then
        match f.invoke .fn (tupleCTAD Val.asTuple vs) env2 with
        | (.ok v, f', env3) =>
          let cache' := cache.assign (f.ret.regularize v)
          match cache'.deref with
          | some r => (.ok r, .lazy f' cache' (some vs) deps', env3)
          | none => (.ub, .lazy f' cache' (some vs) deps', env3)
        | (.error e, f', env3) => (.thrown e, .lazy f' cache dc deps', env3)
      else
        match cache.deref with
        | some r => (.ok r, .lazy f cache dc deps', env2)
        | none => (.ub, .lazy f cache dc deps', env2)
    | (o, deps', env1) => (o.map (fun _ => .rvoid), .lazy f cache dc deps', env1)
/-- `std::tuple{dependencies()...}` (dependencies.md:42): left to right. -/
def DObj.callAll [CxxData D] : List (DObj D W E S) → Env D W S → Out E (List (Val D)) × List (DObj D W E S) × Env D W S
  | [], env => (.ok [], [], env)
  | d :: ds, env =>
    match d.call env with
    | (.ok v, d', env1) =>
      match DObj.callAll ds env1 with
      | (o, ds', env2) => (o.map (v :: ·), d' :: ds', env2)
    | (o, d', env1) => (o.map (fun _ => []), d' :: ds, env1)
end

/-- Does calling the object yield nothing? (static) (dependencies.md:48) -/
def DObj.isVoid : DObj D W E S → Bool
  | .lazy f _ _ _ => f.ret != .val
  | _ => false

/-- Variables and environment of a client program of the first design (client code calling dependencies.md:37-50). -/
structure DState (D W E S : Type) where
  vars : List (DObj D W E S)
  env : Env D W S

/-- An argument of `lazy` (a `void` function as dependency does not compile: a `std::tuple` of its results is formed, dependencies.md:39). -/
def ArgRef.dobj (vars : List (DObj D W E S)) : ArgRef D W E S → Option (DObj D W E S)
  | .value v => some (.value v)
  | .function u => if u.ret = .void then none else some (.function u)
  | .var i => vars[i]?

/-- All arguments (dependencies.md:37). -/
def dobjs (vars : List (DObj D W E S)) : List (ArgRef D W E S) → Option (List (DObj D W E S))
  | [] => some []
  | a :: as =>
    match a.dobj vars, dobjs vars as with
    | some d, some ds => some (d :: ds)
    | _, _ => none

/-- One client operation; `x(nullptr)` does not exist in this design. A call of a `void` function returns nothing (client code calling dependencies.md:37-50). -/
def dstep [CxxData D] (s : DState D W E S) : Op D W E S → Obs D E × DState D W E S
  | .mk f deps =>
    match dobjs s.vars deps with
    | some ds => (.unit, { s with vars := s.vars ++ [.lazy f (Cache.empty f.ret) none ds] })
    | none => (.invalid, s)
  | .copy i =>
    match s.vars[i]? with
    | some o => (.unit, { s with vars := s.vars ++ [o] })
    | none => (.invalid, s)
  | .call i =>
    match s.vars[i]? with
    | some o =>
      match o.call s.env with
      | (r, o', env') =>
        (.ret (r.map fun v => if o.isVoid then none else some v), { vars := s.vars.set i o', env := env' })
    | none => (.invalid, s)
  | .poll _ => (.invalid, s)
  | .poke h => (.unit, { s with env := { s.env with w := h s.env.w } })

/-- A whole program of the first design (client code calling dependencies.md:37-50). -/
def drun [CxxData D] : DState D W E S → List (Op D W E S) → List (Obs D E) × DState D W E S
  | s, [] => ([], s)
  | s, op :: ops =>
    let r := dstep s op
    let rs := drun r.2 ops
    (r.1 :: rs.1, rs.2)

/-- No variables, nothing logged (client code calling dependencies.md:37-50). -/
def DState.init (w : W) : DState D W E S := ⟨[], ⟨w, []⟩⟩

end Pigro
