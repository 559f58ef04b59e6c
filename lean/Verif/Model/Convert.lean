import Verif.Model.History
/-!
# Results of two types

lazy.h:47 takes the type of the cache from `f(deps(nullptr).value...)`; what lazy.h:56 caches is the result of `std::apply(f, values)`. If the only dependency has a `std::tuple` as its value, `values`
is that tuple (tuple_algorithms.h:10), so the former is the type of `f(tuple)`, the latter that of `f(elements...)`: if `f` can be called both ways, with results of two types, then lazy.h:58 compares
a cached result of the one type with a result of the other, and lazy.h:59 converts. (`auto... args`, regular_void.h:16, makes them the same in all other cases.) Here as `Model/Lazy.lean`, but with a
conversion for each user function.
-/
namespace Pigro.Cvt
variable {D W E S : Type}

/-- From the type of the result at lazy.h:56 to that of the cache, lazy.h:47: the conversion by `std::optional::operator=` (lazy.h:59), and `*cache != result` (lazy.h:58). -/
structure Conversion (D : Type) where
  conv : Val D → Val D
  ne : Val D → Val D → Bool

/-- The types are the same (lazy.h:47, :56). -/
def Conversion.same [CxxData D] : Conversion D := ⟨id, Val.ne⟩

/-- The conversion for a function that is called at lazy.h:56, given those of the user's functions (by their numbers). None for the adaptor of lazy.h:84, which ignores its argument, nor for functions
that return nothing. -/
def conversion [CxxData D] (Cv : Nat → Conversion D) : Fun D W E S → Conversion D
  | .regularized u => if u.ret = .val then Cv u.id else .same
  | .wrapDep _ => .same

/-- `cache != result` (lazy.h:58) -/
def cacheNe [CxxData D] (C : Conversion D) : Cache D → Val D → Bool
  | .opt (some v), r => C.ne v r
  | c, r => c.ne r

/-- lazy.h:53-65, as `coreTail`, with the conversion at lazy.h:59. -/
def coreTail [CxxData D] (g : Glue) (Cv : Nat → Conversion D) (f : Fun D W E S) (cache : Cache D) (rs : List (LazyRes D)) (env : Env D W S) :
    Out E (LazyRes D) × Fun D W E S × Cache D × Env D W S :=
  let changed := !cache.engaged || any LazyRes.isChanged rs
  if changed then
    match readValues rs with
    | none => (.ub, f, cache, env)
    | some values =>
      match f.call g values env with
      | (.ok result, f', env') =>
        let changed' := cacheNe (conversion Cv f) cache result
        let cache' := cache.assign ((conversion Cv f).conv result)
        match cache'.deref with
        | some v => (.ok ⟨v, changed', g.coreLive cache⟩, f', cache', { env' with log := env'.log ++ cmpEvents cache result })
        | none => (.ub, f', cache', env')
      | (o, f', env') => (o.map (fun _ => ⟨.rvoid, false, false⟩), f', cache, env')
  else
    match cache.deref with
    | some v => (.ok ⟨v, false, g.coreLive cache⟩, f, cache, env)
    | none => (.ub, f, cache, env)

mutual
/-- Calling a lazy object with `nullptr`, as `Pigro.evalN` (lazy.h:38, :50-66, :70-75, regular_void.h:29-38). -/
def evalN [CxxData D] (g : Glue) (Cv : Nat → Conversion D) : Obj D W E S → Env D W S → Out E (LazyRes D) × Obj D W E S × Env D W S
  | .lazyValue v c, env => (.ok ⟨v, c, !(g.resultByRef && g.valueParamByValue)⟩, .lazyValue v c, env)
  | .core f cache deps, env =>
    match evalDeps g Cv deps env with
    | (.ok rs, deps', env1) =>
      match coreTail g Cv f cache rs env1 with
      | (o, f', cache', env2) => (o, .core (keep g.coreParamsByValue f f') (keep g.bindFrontCopies cache cache') (keep g.coreParamsByValue deps deps'), env2)
    | (o, deps', env1) => (o.map (fun _ => ⟨.rvoid, false, false⟩), .core f cache (keep g.coreParamsByValue deps deps'), env1)
  | .unwrapped inner, env =>
    match evalN g Cv inner env with
    | (o, inner', env') => (o.map (LazyRes.through (g.resultByRef && g.unwrapParamByValue)), .unwrapped (keep g.unwrapParamByValue inner inner'), env')
  | .unregularized inner, env =>
    match evalN g Cv inner env with
    | (o, inner', env') => (o.map (LazyRes.through (g.resultByRef && g.facadeParamByValue)), .unregularized (keep g.facadeParamByValue inner inner'), env')
/-- `std::tuple{ deps(nullptr)... }` (lazy.h:51). -/
def evalDeps [CxxData D] (g : Glue) (Cv : Nat → Conversion D) : List (Obj D W E S) → Env D W S → Out E (List (LazyRes D)) × List (Obj D W E S) × Env D W S
  | [], env => (.ok [], [], env)
  | d :: ds, env =>
    match evalN g Cv d env with
    | (.ok r, d', env1) =>
      match evalDeps g Cv ds env1 with
      | (o, ds', env2) => (o.map (r :: ·), d' :: ds', env2)
    | (o, d', env1) => (o.map (fun _ => []), d' :: ds, env1)
end

/-- Calling a lazy object without arguments, as `Pigro.call0` (lazy.h:39-41, regular_void.h:29-38). -/
def call0 [CxxData D] (g : Glue) (Cv : Nat → Conversion D) : Obj D W E S → Env D W S → Out E (Option (Val D)) × Obj D W E S × Env D W S
  | .unwrapped inner, env =>
    match evalN g Cv (.unwrapped inner) env with
    | (.ok r, o', env') => (if r.live then .ok (some r.value) else .ub, o', env')
    | (o, o', env') => (o.map (fun _ => none), o', env')
  | .unregularized inner, env =>
    match call0 g Cv inner env with
    | (o, inner', env') => (o.map (fun v => if inner.valueIsRV then none else v), .unregularized (keep g.facadeParamByValue inner inner'), env')
  | o, env => (.illFormed, o, env)

/-- One client operation, as `Pigro.step` (client code calling lazy.h:96-103). -/
def step [CxxData D] (g : Glue) (Cv : Nat → Conversion D) (s : State D W E S) : Op D W E S → Obs D E × State D W E S
  | .mk f deps =>
    match (resolveAll s.vars deps).bind (pigroLazy f) with
    | some o => (.unit, { s with vars := s.vars ++ [o] })
    | none => (.invalid, s)
  | .copy i =>
    match s.vars[i]? with
    | some o => (.unit, { s with vars := s.vars ++ [o] })
    | none => (.invalid, s)
  | .call i =>
    match s.vars[i]? with
    | some o =>
      match call0 g Cv o s.env with
      | (r, o', env') => (.ret r, { vars := s.vars.set i o', env := env' })
    | none => (.invalid, s)
  | .poll i =>
    match s.vars[i]? with
    | some o =>
      match evalN g Cv o s.env with
      | (r, o', env') => (.polled r, { vars := s.vars.set i o', env := env' })
    | none => (.invalid, s)
  | .poke h => (.unit, { s with env := { s.env with w := h s.env.w } })

/-- A whole program (client code calling lazy.h:96-103). -/
def run [CxxData D] (g : Glue) (Cv : Nat → Conversion D) : State D W E S → List (Op D W E S) → List (Obs D E) × State D W E S
  | s, [] => ([], s)
  | s, op :: ops =>
    let r := step g Cv s op
    let rs := run g Cv r.2 ops
    (r.1 :: rs.1, rs.2)

end Pigro.Cvt
