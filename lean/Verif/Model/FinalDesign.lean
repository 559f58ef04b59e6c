import Verif.Model.History
/-!
# The design presented in the documentation (docs/walkthrough/comparisons.md, docs/walkthrough/final_design.md)

The documentation presents the library by this shorter program and notes that "in the `pigro` library, the double call to `dependencies(nullptr)` is
optimized to a single call" (comparisons.md:99). The differences to lazy.h: `lazy_core` first asks the dependencies, one after the other, whether they
have changed, stopping at the first that has; and then, if so, asks all of them for their values. Closures capture by copy and are called in place.

As in C++, what a closure is made of (its type) is separate from what it has captured (its state).

Simplifications: the arguments of `f(dependencies(nullptr).value...)` are evaluated left to right (C++ leaves the order open); functions returning `void` or
`regular_void` do not exist here (`std::optional<void>` is ill-formed, and there is no `regular_void` in this design).
-/
namespace Pigro

/-- Closure types (final_design.md:23-64). -/
inductive FTy (D W E S : Type) where
  /-- `lazy_value` (comparisons.md:149-153) -/
  | value
  /-- `lazy_core` (final_design.md:23-36); `k` tells whether `f` is the user's function, or the adaptor `[=](int) mutable { return dependency(); }` made by
  `ensure_lazy` (final_design.md:52) around it -/
  | core (k : Kind) (c : FnCode D W E S) (deps : List (FTy D W E S))
  /-- `facade` (final_design.md:57-64); its state is that of the captured `f` -/
  | facade (inner : FTy D W E S)

/-- Captured state (of final_design.md:26, :58). -/
inductive FSt (D S : Type) where
  | value (v : Val D) (changed : Bool)
  | core (st : S) (cache : Option (Val D)) (deps : List (FSt D S))

variable {D W E S : Type}

/-- `f(args...)`: the function with its own state `st`; the adaptor ignores its argument (final_design.md:52). -/
def callF (k : Kind) (c : FnCode D W E S) (st : S) (args : List (Val D)) (env : Env D W S) : Except E (Val D) × S × Env D W S :=
  let as := match k with
    | .fn => args
    | .dep => []
  let r := c.run st as env.w
  (r.1, r.2.1, { w := r.2.2, log := env.log ++ [.call k c.id as st r.2.1] })

/-- `result != cache` (final_design.md:30): different if there is nothing cached, else the user's `!=` decides. -/
def neCache [CxxData D] (result : Val D) : Option (Val D) → Bool
  | none => true
  | some c => Val.ne result c

/-- The comparison, as an event (final_design.md:30). -/
def neCacheEvents (result : Val D) : Option (Val D) → List (Ev D S)
  | none => []
  | some c => [.cmp result c]

mutual
/-- Calling a lazy closure with `nullptr`: value and `is_changed`. A state that does not belong to the type does not occur (final_design.md:26-35). -/
def evalF [CxxData D] : FTy D W E S → FSt D S → Env D W S → Out E (Val D × Bool) × FSt D S × Env D W S
  | .value, .value v c, env => (.ok (v, c), .value v c, env)
  | .facade i, s, env => evalF i s env
  | .core k c ts, .core st cache ds, env =>
    -- `auto changed = !cache || (dependencies(nullptr).is_changed || ...);`
    match (match cache with
      | none => (.ok true, ds, env)
      | some _ => checkF ts ds env : Out E Bool × List (FSt D S) × Env D W S) with
    | (.ok true, ds1, env1) =>
      -- `auto result = f(dependencies(nullptr).value...);`
      match valuesF ts ds1 env1 with
      | (.ok args, ds2, env2) =>
        match callF k c st args env2 with
        | (.ok r, st', env3) =>
          -- `changed = result != cache; cache = result;`
          (.ok (r, neCache r cache), .core st' (some r) ds2, { env3 with log := env3.log ++ neCacheEvents r cache })
        | (.error e, st', env3) => (.thrown e, .core st' cache ds2, env3)
      | (o, ds2, env2) => (o.map (fun _ => (.rvoid, false)), .core st cache ds2, env2)
    | (.ok false, ds1, env1) =>
      match cache with
      | some v => (.ok (v, false), .core st cache ds1, env1)
      | none => (.ub, .core st cache ds1, env1)
    | (o, ds1, env1) => (o.map (fun _ => (.rvoid, false)), .core st cache ds1, env1)
  | _, s, env => (.illFormed, s, env)
/-- `(dependencies(nullptr).is_changed || ...)`: stops at the first `true` (final_design.md:27). -/
def checkF [CxxData D] : List (FTy D W E S) → List (FSt D S) → Env D W S → Out E Bool × List (FSt D S) × Env D W S
  | t :: ts, d :: ds, env =>
    match evalF t d env with
    | (.ok (_, true), d', env1) => (.ok true, d' :: ds, env1)
    | (.ok (_, false), d', env1) =>
      match checkF ts ds env1 with
      | (o, ds', env2) => (o, d' :: ds', env2)
    | (o, d', env1) => (o.map (fun _ => false), d' :: ds, env1)
  | _, ds, env => (.ok false, ds, env)
/-- `dependencies(nullptr).value...` (final_design.md:29). -/
def valuesF [CxxData D] : List (FTy D W E S) → List (FSt D S) → Env D W S → Out E (List (Val D)) × List (FSt D S) × Env D W S
  | t :: ts, d :: ds, env =>
    match evalF t d env with
    | (.ok (v, _), d', env1) =>
      match valuesF ts ds env1 with
      | (o, ds', env2) => (o.map (v :: ·), d' :: ds', env2)
    | (o, d', env1) => (o.map (fun _ => []), d' :: ds, env1)
  | _, ds, env => (.ok [], ds, env)
end

/-- A closure: type and state (of final_design.md:26, :58). -/
abbrev FObj (D W E S : Type) := FTy D W E S × FSt D S

/-- `lazy_core(f, dependencies...)` (final_design.md:23-24). -/
def lazyCoreF (k : Kind) (f : UFn D W E S) (deps : List (FObj D W E S)) : FObj D W E S :=
  (.core k f.toFnCode (deps.map (·.1)), .core f.st none (deps.map (·.2)))

/-- `facade(f)` (final_design.md:57-64). -/
def facadeF (f : FObj D W E S) : FObj D W E S := (.facade f.1, f.2)

/-- An argument of a client's `lazy`, through the overload of `ensure_lazy` (final_design.md:38-55) made for it: lazy functions as they are, plain functions
behind an adaptor that depends on something that always changes, anything else as a constant. -/
def ensureF [CxxData D] (vars : List (FObj D W E S)) : ArgRef D W E S → Option (FObj D W E S)
  | .value v => some (.value, .value v false)
  | .function u => if u.ret = .val then some (facadeF (lazyCoreF .dep u [(.value, .value (.data CxxData.zero) true)])) else none
  | .var i => vars[i]?

/-- All of them (final_design.md:67). -/
def ensureAllF [CxxData D] (vars : List (FObj D W E S)) : List (ArgRef D W E S) → Option (List (FObj D W E S))
  | [] => some []
  | a :: as =>
    match ensureF vars a, ensureAllF vars as with
    | some d, some ds => some (d :: ds)
    | _, _ => none

/-- `lazy(f, dependencies...)` (final_design.md:66-68). -/
def lazyF (f : UFn D W E S) (deps : List (FObj D W E S)) : FObj D W E S := facadeF (lazyCoreF .fn f deps)

/-- Variables and environment of a client program (client code calling final_design.md:66-68). -/
structure FState (D W E S : Type) where
  vars : List (FObj D W E S)
  env : Env D W S

/-- One client operation. `facade` returns `f(nullptr).value` if called without arguments, and else `f(nullptr)` (final_design.md:58-63). -/
def fstep [CxxData D] (s : FState D W E S) : Op D W E S → Obs D E × FState D W E S
  | .mk f deps =>
    match (if f.ret = .val then ensureAllF s.vars deps else none) with
    | some ds => (.unit, { s with vars := s.vars ++ [lazyF f ds] })
    | none => (.invalid, s)
  | .copy i =>
    match s.vars[i]? with
    | some o => (.unit, { s with vars := s.vars ++ [o] })
    | none => (.invalid, s)
  | .call i =>
    match s.vars[i]? with
    | some o =>
      match evalF o.1 o.2 s.env with
      | (r, st, env') => (.ret (r.map fun v => some v.1), { vars := s.vars.set i (o.1, st), env := env' })
    | none => (.invalid, s)
  | .poll i =>
    match s.vars[i]? with
    | some o =>
      match evalF o.1 o.2 s.env with
      | (r, st, env') => (.polled (r.map fun v => ⟨v.1, v.2, true⟩), { vars := s.vars.set i (o.1, st), env := env' })
    | none => (.invalid, s)
  | .poke h => (.unit, { s with env := { s.env with w := h s.env.w } })

/-- A whole program (client code calling final_design.md:66-68). -/
def frun [CxxData D] : FState D W E S → List (Op D W E S) → List (Obs D E) × FState D W E S
  | s, [] => ([], s)
  | s, op :: ops =>
    let r := fstep s op
    let rs := frun r.2 ops
    (r.1 :: rs.1, rs.2)

/-- The initial state (client code calling final_design.md:66-68). -/
def FState.init (w : W) : FState D W E S := ⟨[], ⟨w, []⟩⟩

end Pigro
