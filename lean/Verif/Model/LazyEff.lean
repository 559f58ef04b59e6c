import Verif.Model.Lazy
/-!
# lazy.h with comparisons and copies of results that have effects and may throw

`Model/Lazy.lean` takes `operator!=` to be a pure function and the assignment to the cache to succeed. Here both are arbitrary code of the user. (Other
copies, of parameters and captures, are still taken to succeed without effect.) Objects, glue and the rest of the code are those of `Model/Lazy.lean`.
-/
namespace Pigro.Eff
variable {D W E S : Type}

/-- Code of the user's result types (lazy.h:58-59). -/
structure Ops (D W E : Type) where
  /-- `operator!=`, called by `cache != result` (lazy.h:58) for an engaged cache -/
  ne : Val D → Val D → W → Except E Bool × W
  /-- `cache = std::move(result)` (lazy.h:59); `result` is const, so this is the copy constructor for an empty cache (`none`) and the copy assignment of
  the type otherwise. If it throws, an empty cache stays empty, and an engaged one contains what the assignment left there (the second component). -/
  store : Option (Val D) → Val D → W → Except E Unit × Val D × W
  /-- What `cache != result` (lazy.h:58) says for an empty cache. It is `true`, unless the result is itself an optional: then the comparison of two optionals is chosen
  (see `Model/OptResult.lean`). No code of the user is run. -/
  neNone : Val D → Bool := fun _ => true

/-- Observable events, with what the operation returned (lazy.h:56-59). -/
inductive Ev (D E S : Type) where
  | call (k : Kind) (id : Nat) (args : List (Val D)) (seen left : S) (r : Except E (Val D))
  | ne (a b : Val D) (r : Except E Bool)
  | store (old : Option (Val D)) (new : Val D) (r : Except E Unit)

/-- As `Pigro.Env` (what is outside lazy.h:96-103). -/
structure Env (D W E S : Type) where
  w : W
  log : List (Ev D E S)

/-- As `UFn.invoke` (regular_void.h:20, :23, lazy.h:84). -/
def invoke (u : UFn D W E S) (k : Kind) (args : List (Val D)) (env : Env D W E S) : Except E (Val D) × UFn D W E S × Env D W E S :=
  let r := u.run u.st args env.w
  (r.1, { u with st := r.2.1 }, { w := r.2.2, log := env.log ++ [.call k u.id args u.st r.2.1 r.1] })

/-- As `Fun.call` (lazy.h:56). -/
def callFun (g : Glue) : Fun D W E S → List (Val D) → Env D W E S → Out E (Val D) × Fun D W E S × Env D W E S
  | .regularized u, args, env =>
    match invoke u .fn args env with
    | (.ok v, u', env') => (.ok (u.ret.regularize v), .regularized (keep g.regParamByValue u u'), env')
    | (.error e, u', env') => (.thrown e, .regularized (keep g.regParamByValue u u'), env')
  | .wrapDep u, _, env =>
    match invoke u .dep [] env with
    | (.ok v, u', env') => (.ok (u.ret.regularize v), .wrapDep (keep g.wrapParamByValue u u'), env')
    | (.error e, u', env') => (.thrown e, .wrapDep (keep g.wrapParamByValue u u'), env')

/-- `changed = cache != result;` (lazy.h:58) -/
def compare (ops : Ops D W E) (cache : Cache D) (r : Val D) (env : Env D W E S) : Except E Bool × Env D W E S :=
  match cache with
  | .opt none => (.ok (ops.neNone r), env)
  | .opt (some c) =>
    let x := ops.ne c r env.w
    (x.1, ⟨x.2, env.log ++ [.ne c r x.1]⟩)
  | .rv o => (.ok (OptRV.ne o OptRV.ofRV), env)

/-- `cache = std::move(result);` (lazy.h:59) -/
def assign (ops : Ops D W E) (cache : Cache D) (r : Val D) (env : Env D W E S) : Except E Unit × Cache D × Env D W E S :=
  match cache with
  | .opt old =>
    let x := ops.store old r env.w
    let env' : Env D W E S := ⟨x.2.2, env.log ++ [.store old r x.1]⟩
    match x.1 with
    | .ok _ => (.ok (), .opt (some r), env')
    | .error e => (.error e, .opt (old.map fun _ => x.2.1), env')
  | .rv o => (.ok (), .rv o.assign, env)

/-- As `coreTail` (lazy.h:53-65). -/
def coreTail (g : Glue) (ops : Ops D W E) (f : Fun D W E S) (cache : Cache D) (rs : List (LazyRes D)) (env : Env D W E S) :
    Out E (LazyRes D) × Fun D W E S × Cache D × Env D W E S :=
  if !cache.engaged || any LazyRes.isChanged rs then
    match readValues rs with
    | none => (.ub, f, cache, env)
    | some values =>
      match callFun g f values env with
      | (.ok result, f', env1) =>
        match compare ops cache result env1 with
        | (.error e, env2) => (.thrown e, f', cache, env2)
        | (.ok changed, env2) =>
          match assign ops cache result env2 with
          | (.error e, cache', env3) => (.thrown e, f', cache', env3)
          | (.ok _, cache', env3) =>
            match cache'.deref with
            | some v => (.ok ⟨v, changed, g.coreLive cache⟩, f', cache', env3)
            | none => (.ub, f', cache', env3)
      | (o, f', env1) => (o.map (fun _ => ⟨.rvoid, false, false⟩), f', cache, env1)
  else
    match cache.deref with
    | some v => (.ok ⟨v, false, g.coreLive cache⟩, f, cache, env)
    | none => (.ub, f, cache, env)

mutual
/-- As `Pigro.evalN` (lazy.h:38, :50-66, :70-75, regular_void.h:29-38). -/
def evalN (g : Glue) (ops : Ops D W E) : Obj D W E S → Env D W E S → Out E (LazyRes D) × Obj D W E S × Env D W E S
  | .lazyValue v c, env => (.ok ⟨v, c, !(g.resultByRef && g.valueParamByValue)⟩, .lazyValue v c, env)
  | .core f cache deps, env =>
    match evalDeps g ops deps env with
    | (.ok rs, deps', env1) =>
      match coreTail g ops f cache rs env1 with
      | (o, f', cache', env2) =>
        (o, .core (keep g.coreParamsByValue f f') (keep g.bindFrontCopies cache cache') (keep g.coreParamsByValue deps deps'), env2)
    | (o, deps', env1) => (o.map (fun _ => ⟨.rvoid, false, false⟩), .core f cache (keep g.coreParamsByValue deps deps'), env1)
  | .unwrapped inner, env =>
    match evalN g ops inner env with
    | (o, inner', env') =>
      (o.map (LazyRes.through (g.resultByRef && g.unwrapParamByValue)), .unwrapped (keep g.unwrapParamByValue inner inner'), env')
  | .unregularized inner, env =>
    match evalN g ops inner env with
    | (o, inner', env') =>
      (o.map (LazyRes.through (g.resultByRef && g.facadeParamByValue)), .unregularized (keep g.facadeParamByValue inner inner'), env')
/-- As `Pigro.evalDeps` (lazy.h:51). -/
def evalDeps (g : Glue) (ops : Ops D W E) : List (Obj D W E S) → Env D W E S → Out E (List (LazyRes D)) × List (Obj D W E S) × Env D W E S
  | [], env => (.ok [], [], env)
  | d :: ds, env =>
    match evalN g ops d env with
    | (.ok r, d', env1) =>
      match evalDeps g ops ds env1 with
      | (o, ds', env2) => (o.map (r :: ·), d' :: ds', env2)
    | (o, d', env1) => (o.map (fun _ => []), d' :: ds, env1)
end

/-- As `Pigro.call0` (lazy.h:39-41, regular_void.h:29-38). -/
def call0 (g : Glue) (ops : Ops D W E) : Obj D W E S → Env D W E S → Out E (Option (Val D)) × Obj D W E S × Env D W E S
  | .unwrapped inner, env =>
    match evalN g ops (.unwrapped inner) env with
    | (.ok r, o', env') => (if r.live then .ok (some r.value) else .ub, o', env')
    | (o, o', env') => (o.map (fun _ => none), o', env')
  | .unregularized inner, env =>
    match call0 g ops inner env with
    | (o, inner', env') =>
      (o.map (fun v => if inner.valueIsRV then none else v), .unregularized (keep g.facadeParamByValue inner inner'), env')
  | o, env => (.illFormed, o, env)

end Pigro.Eff
