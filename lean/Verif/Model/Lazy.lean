import Verif.Model.Value
import Verif.Model.Algorithms
/-!
# lazy.h (with the parts of bind_tuple.h and regular_void.h it goes through)

Objects are values; calling an object returns its state after the call. Where C++ hands an object to
a callee by copy, the original keeps its old state; where by reference, it gets the new state
(`keep`). Which of the two happens at each place is read off `Glue`; `Glue.asWritten` is the pinned code.
-/
namespace Pigro

/-- One Boolean per place where the code hands an object over by copy (`true`) or by reference
(`false`), and one for the type deduced for `LazyResult`. The pinned code is `Glue.asWritten` (bind_tuple.h:46, lazy.h:23-24, :38, :50, :70, :84, regular_void.h:16, :29). -/
structure Glue where
  /-- bind_tuple.h:46 `std::bind_front(f, ...)` decay-copies the stored callable `f`, i.e. (for
  `detail::lazy`, lazy.h:50) the closure that owns `cache`. -/
  bindFrontCopies : Bool
  /-- lazy.h:50 `[=](std::nullptr_t, auto f, auto... deps) mutable`: by-value parameters. -/
  coreParamsByValue : Bool
  /-- lazy.h:38 `[](auto &self, std::nullptr_t, auto f)`: by-value parameter `f`. -/
  unwrapParamByValue : Bool
  /-- regular_void.h:29 `[](auto f, auto... args) mutable` in `unregularized_void`. -/
  facadeParamByValue : Bool
  /-- regular_void.h:16 `[](auto f, auto... args) mutable` in `regularized_void`. -/
  regParamByValue : Bool
  /-- lazy.h:84 `[](auto, auto dep) mutable` in `ensure_lazy`. -/
  wrapParamByValue : Bool
  /-- lazy.h:70 `[](std::nullptr_t, auto value, auto changed)` in `lazy_value`. -/
  valueParamByValue : Bool
  /-- lazy.h:23-24: `LazyResult{x, b}` for an lvalue `x` of type `T` is `LazyResult<const T &>`. -/
  resultByRef : Bool
  deriving DecidableEq

/-- The pinned code: everything is handed over by copy, the result refers to the cached object (bind_tuple.h:46, lazy.h:23-24, :38, :50, :70, :84, regular_void.h:16, :29). -/
def Glue.asWritten : Glue :=
  ⟨true, true, true, true, true, true, true, true⟩

/-- The documented design (docs/walkthrough/final_design.md): closures capture function, dependencies
and cache and are called in place, so that their state stays in the object; results are values. -/
def Glue.retained : Glue :=
  ⟨false, false, false, false, false, false, false, false⟩

/-- The state of an object after it was handed to a callee that turned it from `old` into `new` (parameters of lazy.h:38, :50, :84, regular_void.h:16, :29). -/
def keep {α : Type} (byCopy : Bool) (old new : α) : α :=
  if byCopy then old else new

/-- Who invoked a user function: a `lazy` node its wrapped function, or `ensure_lazy`'s adaptor
(lazy.h:84) a plain function used as dependency. -/
inductive Kind where
  | fn
  | dep
  deriving DecidableEq

/-- Observable events: invocation of a user function with its arguments, the own state it found
(`seen`) and the own state it left (`left`); comparison of two values with the user's
`operator!=` (lazy.h:56, :58, :84). -/
inductive Ev (D S : Type) where
  | call (k : Kind) (id : Nat) (args : List (Val D)) (seen left : S)
  | cmp (a b : Val D)

/-- Everything outside the lazy objects: the world read and written by user functions through
references and globals, and the log of events so far (what is outside lazy.h:96-103). -/
structure Env (D W S : Type) where
  w : W
  log : List (Ev D S)

/-- The type of a user callable: an identity (for the log), its return type and its code.
The code may read and change the callable's own state and the world, and may throw (the `f` and `deps` of lazy.h:96). -/
structure FnCode (D W E S : Type) where
  id : Nat
  ret : RetTy
  run : S → List (Val D) → W → Except E (Val D) × S × W

/-- A user callable object: code and own (captured by value) state (the `f` and `deps` of lazy.h:96). -/
structure UFn (D W E S : Type) extends FnCode D W E S where
  st : S

/-- The function objects that become the `f` of `detail::lazy`: `regularized_void(f)`
(lazy.h:98) or the adaptor made by `ensure_lazy` for a plain function dependency (lazy.h:84). -/
inductive Fun (D W E S : Type) where
  | regularized (u : UFn D W E S)
  | wrapDep (u : UFn D W E S)

/-- Lazy objects: the results of `lazy_value` (lazy.h:69-76), `detail::lazy` (lazy.h:46-67),
`unwrap_value` (lazy.h:35-44) and, around the latter, `unregularized_void` (lazy.h:102,
regular_void.h:28-39). -/
inductive Obj (D W E S : Type) where
  | lazyValue (v : Val D) (changed : Bool)
  | core (f : Fun D W E S) (cache : Cache D) (deps : List (Obj D W E S))
  | unwrapped (inner : Obj D W E S)
  | unregularized (inner : Obj D W E S)

/-- `LazyResult` (lazy.h:17-21). `live`: reading `value` is defined, i.e. the member is an object
of its own or a reference to an object that still exists. -/
structure LazyRes (D : Type) where
  value : Val D
  isChanged : Bool
  live : Bool

variable {D W E S : Type}

/-- The value of `f(args...)` as returned by `regularized_void` (regular_void.h:17-24): `void`
becomes `regular_void`; and an expression of type `regular_void` has the value `rvoid`. -/
def RetTy.regularize : RetTy → Val D → Val D
  | .val, v => v
  | .void, _ => .rvoid
  | .rvoid, _ => .rvoid

/-- Invoke the user's code: the callable afterwards, and the event in the log (regular_void.h:20, :23, lazy.h:84). -/
def UFn.invoke (u : UFn D W E S) (k : Kind) (args : List (Val D)) (env : Env D W S) :
    Except E (Val D) × UFn D W E S × Env D W S :=
  let r := u.run u.st args env.w
  (r.1, { u with st := r.2.1 }, { w := r.2.2, log := env.log ++ [.call k u.id args u.st r.2.1] })

/-- Call the `f` of `detail::lazy` (lazy.h:56).
* `regularized u`: `compressed_tuple{ f } >> [](auto f, auto... args) mutable {...}`
  (regular_void.h:16-25): passes the stored `f` (through `>>`, which keeps a reference to it) to the
  by-value parameter, invokes it with `args...`.
* `wrapDep u`: `compressed_tuple{ dep } << [](auto, auto dep) mutable { return dep(); }`
  (lazy.h:84): ignores its argument, invokes a copy of `dep`. -/
def Fun.call (g : Glue) : Fun D W E S → List (Val D) → Env D W S →
    Out E (Val D) × Fun D W E S × Env D W S
  | .regularized u, args, env =>
    match u.invoke .fn args env with
    | (.ok v, u', env') =>
      (.ok (u.ret.regularize v), .regularized (keep g.regParamByValue u u'), env')
    | (.error e, u', env') => (.thrown e, .regularized (keep g.regParamByValue u u'), env')
  | .wrapDep u, _, env =>
    match u.invoke .dep [] env with
    | (.ok v, u', env') =>
      (.ok (u.ret.regularize v), .wrapDep (keep g.wrapParamByValue u u'), env')
    | (.error e, u', env') => (.thrown e, .wrapDep (keep g.wrapParamByValue u u'), env')

/-- `result_t` (lazy.h:47), as far as it matters. -/
def Fun.ret : Fun D W E S → RetTy
  | .regularized u => u.ret
  | .wrapDep u => u.ret

/-- Elements of a tuple value (for `tupleCTAD`) (tuple_algorithms.h:10). -/
def Val.asTuple : Val D → Option (List (Val D))
  | .tup vs => some vs
  | _ => none

/-- `transform(args, value)` (lazy.h:55), where `value` copies `result.value` (lazy.h:27-29): reading
a dead reference is undefined behaviour (`none`). -/
def readValues (rs : List (LazyRes D)) : Option (List (Val D)) :=
  if rs.all (·.live) then some (transform Val.asTuple LazyRes.value rs) else none

/-- `cache != result` together with its event: the user's `operator!=` is called only for an engaged
ordinary `std::optional` (lazy.h:58). -/
def cmpEvents (cache : Cache D) (r : Val D) : List (Ev D S) :=
  match cache with
  | .opt (some c) => [.cmp c r]
  | _ => []

/-- Is the member `value` of `LazyResult{ *cache, changed }` (lazy.h:62-65) readable after the call
has returned? For an ordinary `std::optional` it is a reference to the value inside `cache`, i.e. inside
the closure; if the closure was the temporary made by `std::bind_front`, it is gone. For
`optional<regular_void>`, `*cache` is a temporary (regular_void.h:59), gone in any case. -/
def Glue.coreLive (g : Glue) : Cache D → Bool
  | .opt _ => !(g.resultByRef && g.bindFrontCopies)
  | .rv _ => !g.resultByRef

/-- The closure of `detail::lazy` after its dependencies were evaluated to `rs` (lazy.h:53-65).
Result, function object afterwards, cache afterwards. -/
def coreTail [CxxData D] (g : Glue) (f : Fun D W E S) (cache : Cache D) (rs : List (LazyRes D))
    (env : Env D W S) : Out E (LazyRes D) × Fun D W E S × Cache D × Env D W S :=
  let changed := !cache.engaged || any LazyRes.isChanged rs
  if changed then
    match readValues rs with
    | none => (.ub, f, cache, env)
    | some values =>
      match f.call g values env with
      | (.ok result, f', env') =>
        let changed' := cache.ne result
        let cache' := cache.assign result
        match cache'.deref with
        | some v => (.ok ⟨v, changed', g.coreLive cache⟩, f', cache',
            { env' with log := env'.log ++ cmpEvents cache result })
        | none => (.ub, f', cache', env')
      | (o, f', env') => (o.map (fun _ => ⟨.rvoid, false, false⟩), f', cache, env')
  else
    match cache.deref with
    | some v => (.ok ⟨v, false, g.coreLive cache⟩, f, cache, env)
    | none => (.ub, f, cache, env)

/-- A result that crosses a by-value parameter: if it refers into the copy, it is dead afterwards (lazy.h:38, regular_void.h:29). -/
def LazyRes.through (refIntoCopy : Bool) (r : LazyRes D) : LazyRes D :=
  { r with live := r.live && !refIntoCopy }

mutual
/-- Calling a lazy object with `nullptr` (lazy.h:38, :50-66, :70-75, regular_void.h:29-38). -/
def evalN [CxxData D] (g : Glue) : Obj D W E S → Env D W S →
    Out E (LazyRes D) × Obj D W E S × Env D W S
  -- lazy.h:70-75. The reference refers to the parameter `value`.
  | .lazyValue v c, env =>
    (.ok ⟨v, c, !(g.resultByRef && g.valueParamByValue)⟩, .lazyValue v c, env)
  -- lazy.h:50-66, called through bind_tuple.h:41-47.
  | .core f cache deps, env =>
    match evalDeps g deps env with
    | (.ok rs, deps', env1) =>
      match coreTail g f cache rs env1 with
      | (o, f', cache', env2) =>
        (o, .core (keep g.coreParamsByValue f f') (keep g.bindFrontCopies cache cache')
          (keep g.coreParamsByValue deps deps'), env2)
    | (o, deps', env1) =>
      (o.map (fun _ => ⟨.rvoid, false, false⟩),
        .core f cache (keep g.coreParamsByValue deps deps'), env1)
  -- lazy.h:38
  | .unwrapped inner, env =>
    match evalN g inner env with
    | (o, inner', env') =>
      (o.map (LazyRes.through (g.resultByRef && g.unwrapParamByValue)),
        .unwrapped (keep g.unwrapParamByValue inner inner'), env')
  -- regular_void.h:29-38 with `args...` = `nullptr`
  | .unregularized inner, env =>
    match evalN g inner env with
    | (o, inner', env') =>
      (o.map (LazyRes.through (g.resultByRef && g.facadeParamByValue)),
        .unregularized (keep g.facadeParamByValue inner inner'), env')
/-- `std::tuple{ deps(nullptr)... }` (lazy.h:51): left to right; an exception stops the evaluation.
(One element: `LazyResult` is not a `std::tuple`, so no unpacking happens here.) -/
def evalDeps [CxxData D] (g : Glue) : List (Obj D W E S) → Env D W S →
    Out E (List (LazyRes D)) × List (Obj D W E S) × Env D W S
  | [], env => (.ok [], [], env)
  | d :: ds, env =>
    match evalN g d env with
    | (.ok r, d', env1) =>
      match evalDeps g ds env1 with
      | (o, ds', env2) => (o.map (r :: ·), d' :: ds', env2)
    | (o, d', env1) => (o.map (fun _ => []), d' :: ds, env1)
end

/-- Is the value type of the lazy object `regular_void`? (static: the type of `result.value`) (regular_void.h:32) -/
def Obj.valueIsRV : Obj D W E S → Bool
  | .lazyValue v _ => match v with
    | .rvoid => true
    | _ => false
  | .core _ cache _ => match cache with
    | .rv _ => true
    | _ => false
  | .unwrapped inner => inner.valueIsRV
  | .unregularized inner => inner.valueIsRV

/-- Calling a lazy object without arguments; `none` is a `void` result.
Objects made by `lazy_value` and `detail::lazy` have no such call operator (lazy.h:39-41, regular_void.h:29-38). -/
def call0 [CxxData D] (g : Glue) : Obj D W E S → Env D W S →
    Out E (Option (Val D)) × Obj D W E S × Env D W S
  -- lazy.h:39-41: `self(nullptr).value`, `self` being the object itself
  | .unwrapped inner, env =>
    match evalN g (.unwrapped inner) env with
    | (.ok r, o', env') => (if r.live then .ok (some r.value) else .ub, o', env')
    | (o, o', env') => (o.map (fun _ => none), o', env')
  -- regular_void.h:29-38 without further arguments
  | .unregularized inner, env =>
    match call0 g inner env with
    | (o, inner', env') =>
      (o.map (fun v => if inner.valueIsRV then none else v),
        .unregularized (keep g.facadeParamByValue inner inner'), env')
  | o, env => (.illFormed, o, env)

/-- `detail::lazy(f, deps...)` (lazy.h:46-67): an empty cache, nothing evaluated. -/
def detailLazy (f : Fun D W E S) (deps : List (Obj D W E S)) : Obj D W E S :=
  .core f (Cache.empty f.ret) deps

/-- What the overloads of `ensure_lazy` (lazy.h:78-90) look at: is `dep(nullptr)` valid with a
`lazy_result` (concepts.h:8-18), and is `dep()` valid (`std::invocable`)? -/
structure Caps where
  lazyFunction : Bool
  invocable : Bool
  deriving DecidableEq

/-- The three overloads of `ensure_lazy` (lazy.h:78-90). -/
inductive EnsureOverload where
  | asIs      -- lazy.h:78-80
  | poll      -- lazy.h:82-86
  | constant  -- lazy.h:88-90
  deriving DecidableEq

/-- Viable overloads of `ensure_lazy` for the given capabilities (lazy.h:78, :82, :88). -/
def ensureViable (c : Caps) : EnsureOverload → Bool
  | .asIs => c.lazyFunction && c.invocable   -- concepts::lazy_function_unwrapped, concepts.h:20-21
  | .poll => c.invocable                     -- std::invocable
  | .constant => true

/-- `moreConstrained a b`: the constraint of `a` subsumes that of `b` and not conversely:
`lazy_function && invocable` ⊃ `invocable` ⊃ (nothing) (language rule, for lazy.h:78, :82, :88). -/
def moreConstrained : EnsureOverload → EnsureOverload → Bool
  | .asIs, .poll => true
  | .asIs, .constant => true
  | .poll, .constant => true
  | _, _ => false

/-- Overload resolution: the viable overload more constrained than every other viable one (language rule, for lazy.h:99). -/
def ensureSelect (c : Caps) : Option EnsureOverload :=
  [EnsureOverload.asIs, .poll, .constant].find? fun a =>
    ensureViable c a &&
      [EnsureOverload.asIs, .poll, .constant].all fun b =>
        decide (b = a) || !ensureViable c b || moreConstrained a b

/-- What a user can pass as dependency (the `deps` of lazy.h:96). -/
inductive DepArg (D W E S : Type) where
  | value (v : Val D)
  | function (u : UFn D W E S)
  | lazyObj (o : Obj D W E S)

/-- Capabilities of lazy objects: all are callable with `nullptr`; those with the facade also
without arguments (concepts.h:14-21). -/
def Obj.caps : Obj D W E S → Caps
  | .lazyValue _ _ => ⟨true, false⟩
  | .core _ _ _ => ⟨true, false⟩
  | .unwrapped _ => ⟨true, true⟩
  | .unregularized _ => ⟨true, true⟩

/-- Capabilities of dependency arguments. Simplification: `function` stands for callables without
arguments that do not also accept `nullptr` and return a lazy result (concepts.h:14-21). -/
def DepArg.caps : DepArg D W E S → Caps
  | .value _ => ⟨false, false⟩
  | .function _ => ⟨false, true⟩
  | .lazyObj o => o.caps

/-- `ensure_lazy(dep)` (lazy.h:78-90). `none`: does not compile (a `void` function as dependency makes
`std::optional<void>`), or not representable here (an object that is only callable with `nullptr`
would become a constant whose value is that object). -/
def ensureLazy [CxxData D] (a : DepArg D W E S) : Option (Obj D W E S) :=
  match ensureSelect a.caps, a with
  | some .asIs, .lazyObj o => some o
  | some .poll, .function u =>
    if u.ret = .void then none
    else some (detailLazy (.wrapDep u) [.lazyValue (.data CxxData.zero) true])
  | some .constant, .value v => some (.lazyValue v false)
  | _, _ => none

/-- The loop `detail::ensure_lazy(deps)...` (lazy.h:99). -/
def ensureAll [CxxData D] : List (DepArg D W E S) → Option (List (Obj D W E S))
  | [] => some []
  | a :: as =>
    match ensureLazy a, ensureAll as with
    | some o, some os => some (o :: os)
    | _, _ => none

/-- `pigro::lazy(f, deps...)` (lazy.h:96-103). -/
def pigroLazy [CxxData D] (f : UFn D W E S) (deps : List (DepArg D W E S)) :
    Option (Obj D W E S) :=
  match ensureAll deps with
  | some ds => some (.unregularized (.unwrapped (detailLazy (.regularized f) ds)))
  | none => none

end Pigro
