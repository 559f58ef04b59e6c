import Verif.Model.History
/-!
# Lazy functions of user-defined types (concepts.h:8-21)

`ensure_lazy` passes on as it is whatever can be called with `nullptr`, giving something with members `value` and `is_changed`, and can be called without
arguments (lazy.h:78-80). That need not be an object made by this library: a user may write such a class, and `std::reference_wrapper` of a lazy function is one.
This file is `Model/Lazy.lean` and `Model/History.lean` with such objects added; `C71_conservative` is the proof that nothing else differs.
-/
namespace Pigro
variable {D W E S : Type}

/-- The type of a user-defined lazy function: its call operator for `nullptr`, returning a `lazy_result` (concepts.h:9-12), by value. The one without
arguments is required by `lazy_function_unwrapped` (concepts.h:20-21) but never called by the library. -/
structure LCode (D W E S : Type) where
  id : Nat
  run : S → W → Except E (Val D × Bool) × S × W

/-- A user-defined lazy function: code and own state (concepts.h:14-18). -/
structure LFn (D W E S : Type) extends LCode D W E S where
  st : S

/-- Lazy objects, see `Obj` (lazy.h:35-103). -/
inductive XObj (D W E S : Type) where
  | lazyValue (v : Val D) (changed : Bool)
  | core (f : Fun D W E S) (cache : Cache D) (deps : List (XObj D W E S))
  | unwrapped (inner : XObj D W E S)
  | unregularized (inner : XObj D W E S)
  | user (l : LFn D W E S)

mutual
/-- Calling a lazy object with `nullptr`, see `evalN`; a user-defined one runs its own code (logged like the call of a plain function) (lazy.h:38, :50-66, :70-75, regular_void.h:29-38). -/
def evalX [CxxData D] (g : Glue) : XObj D W E S → Env D W S → Out E (LazyRes D) × XObj D W E S × Env D W S
  | .lazyValue v c, env => (.ok ⟨v, c, !(g.resultByRef && g.valueParamByValue)⟩, .lazyValue v c, env)
  | .core f cache deps, env =>
    match evalXs g deps env with
    | (.ok rs, deps', env1) =>
      match coreTail g f cache rs env1 with
      | (o, f', cache', env2) =>
        (o, .core (keep g.coreParamsByValue f f') (keep g.bindFrontCopies cache cache') (keep g.coreParamsByValue deps deps'), env2)
    | (o, deps', env1) =>
      (o.map (fun _ => ⟨.rvoid, false, false⟩), .core f cache (keep g.coreParamsByValue deps deps'), env1)
  | .unwrapped inner, env =>
    match evalX g inner env with
    | (o, inner', env') =>
      (o.map (LazyRes.through (g.resultByRef && g.unwrapParamByValue)), .unwrapped (keep g.unwrapParamByValue inner inner'), env')
  | .unregularized inner, env =>
    match evalX g inner env with
    | (o, inner', env') =>
      (o.map (LazyRes.through (g.resultByRef && g.facadeParamByValue)), .unregularized (keep g.facadeParamByValue inner inner'), env')
  | .user l, env =>
    match l.run l.st env.w with
    | (.ok (v, c), st', w') => (.ok ⟨v, c, true⟩, .user { l with st := st' }, ⟨w', env.log ++ [.call .dep l.id [] l.st st']⟩)
    | (.error e, st', w') => (.thrown e, .user { l with st := st' }, ⟨w', env.log ++ [.call .dep l.id [] l.st st']⟩)
/-- `std::tuple{ deps(nullptr)... }` (lazy.h:51), see `evalDeps`. -/
def evalXs [CxxData D] (g : Glue) : List (XObj D W E S) → Env D W S → Out E (List (LazyRes D)) × List (XObj D W E S) × Env D W S
  | [], env => (.ok [], [], env)
  | d :: ds, env =>
    match evalX g d env with
    | (.ok r, d', env1) =>
      match evalXs g ds env1 with
      | (o, ds', env2) => (o.map (r :: ·), d' :: ds', env2)
    | (o, d', env1) => (o.map (fun _ => []), d' :: ds, env1)
end

/-- Is the value type `regular_void`? See `Obj.valueIsRV` (regular_void.h:32). -/
def XObj.valueIsRV : XObj D W E S → Bool
  | .lazyValue v _ => match v with
    | .rvoid => true
    | _ => false
  | .core _ cache _ => match cache with
    | .rv _ => true
    | _ => false
  | .unwrapped inner => inner.valueIsRV
  | .unregularized inner => inner.valueIsRV
  | .user _ => false

/-- Calling a lazy object made by this library without arguments, see `call0` (lazy.h:39-41, regular_void.h:29-38). -/
def callX [CxxData D] (g : Glue) : XObj D W E S → Env D W S → Out E (Option (Val D)) × XObj D W E S × Env D W S
  | .unwrapped inner, env =>
    match evalX g (.unwrapped inner) env with
    | (.ok r, o', env') => (if r.live then .ok (some r.value) else .ub, o', env')
    | (o, o', env') => (o.map (fun _ => none), o', env')
  | .unregularized inner, env =>
    match callX g inner env with
    | (o, inner', env') =>
      (o.map (fun v => if inner.valueIsRV then none else v), .unregularized (keep g.facadeParamByValue inner inner'), env')
  | o, env => (.illFormed, o, env)

/-- A dependency as written in a client program, see `ArgRef` (the arguments of lazy.h:96). -/
inductive XArg (D W E S : Type) where
  | value (v : Val D)
  | function (u : UFn D W E S)
  | var (i : Nat)
  | user (l : LFn D W E S)

/-- `ensure_lazy(dep)` (lazy.h:78-90) of a by-value copy of the argument, see `ensureLazy`: variables and user-defined lazy functions as they are. -/
def XArg.ensure [CxxData D] (vars : List (XObj D W E S)) : XArg D W E S → Option (XObj D W E S)
  | .value v => some (.lazyValue v false)
  | .function u => if u.ret = .void then none else some (.core (.wrapDep u) (Cache.empty u.ret) [.lazyValue (.data CxxData.zero) true])
  | .var i => vars[i]?
  | .user l => some (.user l)

/-- All arguments of one `pigro::lazy` call (lazy.h:99). -/
def ensureX [CxxData D] (vars : List (XObj D W E S)) : List (XArg D W E S) → Option (List (XObj D W E S))
  | [] => some []
  | a :: as =>
    match a.ensure vars, ensureX vars as with
    | some o, some os => some (o :: os)
    | _, _ => none

/-- `pigro::lazy(f, deps...)` (lazy.h:96-103), see `pigroLazy`. -/
def lazyX (f : UFn D W E S) (ds : List (XObj D W E S)) : XObj D W E S :=
  .unregularized (.unwrapped (.core (.regularized f) (Cache.empty f.ret) ds))

/-- Client operations, see `Op` (client code calling lazy.h:96-103). -/
inductive XOp (D W E S : Type) where
  | mk (f : UFn D W E S) (deps : List (XArg D W E S))
  | copy (i : Nat)
  | call (i : Nat)
  | poll (i : Nat)
  | poke (h : W → W)

/-- Variables and environment (client code calling lazy.h:96-103). -/
structure XState (D W E S : Type) where
  vars : List (XObj D W E S)
  env : Env D W S

/-- One client operation, see `step` (client code calling lazy.h:96-103). -/
def xstep [CxxData D] (g : Glue) (s : XState D W E S) : XOp D W E S → Obs D E × XState D W E S
  | .mk f deps =>
    match ensureX s.vars deps with
    | some ds => (.unit, { s with vars := s.vars ++ [lazyX f ds] })
    | none => (.invalid, s)
  | .copy i =>
    match s.vars[i]? with
    | some o => (.unit, { s with vars := s.vars ++ [o] })
    | none => (.invalid, s)
  | .call i =>
    match s.vars[i]? with
    | some o =>
      match callX g o s.env with
      | (r, o', env') => (.ret r, { vars := s.vars.set i o', env := env' })
    | none => (.invalid, s)
  | .poll i =>
    match s.vars[i]? with
    | some o =>
      match evalX g o s.env with
      | (r, o', env') => (.polled r, { vars := s.vars.set i o', env := env' })
    | none => (.invalid, s)
  | .poke h => (.unit, { s with env := { s.env with w := h s.env.w } })

/-- A whole program (client code calling lazy.h:96-103). -/
def xrun [CxxData D] (g : Glue) : XState D W E S → List (XOp D W E S) → List (Obs D E) × XState D W E S
  | s, [] => ([], s)
  | s, op :: ops =>
    let r := xstep g s op
    let rs := xrun g r.2 ops
    (r.1 :: rs.1, rs.2)

/-- The initial state (client code calling lazy.h:96-103). -/
def XState.init (w : W) : XState D W E S := ⟨[], ⟨w, []⟩⟩

end Pigro
