import Verif.Model.Lazy
/-!
# lazy.h: copies of results

Which results are copied and moved, where, during a call or a poll, in the order in which it happens. Copies of functions, constants and arguments that are parts of lazy objects are not listed (see `Model/LazyMem.lean` for those),
nor are objects of type `regular_void` made from its cache. What functions do with their arguments is up to them. A result returned by a function is not copied up to `result` (lazy.h:56), all returns between being prvalues.
-/
namespace Pigro.Res
variable {D W E S : Type}

/-- Where a result is copied or moved (lazy.h:27-65). -/
inductive Place where
  /-- into the member of `LazyResult` (lazy.h:62-65, :71-74) -/
  | result
  /-- `LazyResult`s into `args` (lazy.h:51) -/
  | poll
  /-- the parameter of `is_changed` (lazy.h:31) -/
  | flag
  /-- the parameter of `value` (lazy.h:27) -/
  | param
  /-- what `value` returns (lazy.h:28) -/
  | value
  /-- the element of the tuple made by `transform` (tuple_algorithms.h:10) -/
  | pack
  /-- the parameter of the lambda around a function (regular_void.h:16, lazy.h:84), or of `std::bind_front` (bind_tuple.h:46) before that -/
  | arg
  /-- into the cache (lazy.h:59) -/
  | store
  /-- out of the `LazyResult`, what a call returns (lazy.h:40) -/
  | out
  deriving DecidableEq

/-- A copy or a move (language rule, for lazy.h:27-65). -/
structure Cp (D : Type) where
  place : Place
  move : Bool
  v : Val D

/-- `LazyResult{ x, changed }` for an lvalue `x` (lazy.h:17-24): copies, unless the member is a reference. -/
def make (g : Glue) (v : Val D) : List (Cp D) := if g.resultByRef then [] else [⟨.result, false, v⟩]

/-- `LazyResult{ *cache, changed }` (lazy.h:62-65). For `optional<regular_void>`, `*cache` is a prvalue. -/
def makeCore (g : Glue) (cache : Cache D) (v : Val D) : List (Cp D) :=
  match cache with
  | .opt _ => make g v
  | .rv _ => []

/-- A copy or move of a `LazyResult` (language rule, for lazy.h:27, :31, :38, :51). -/
def pass (g : Glue) (place : Place) (move : Bool) (r : LazyRes D) : List (Cp D) := if g.resultByRef then [] else [⟨place, move, r.value⟩]

/-- `any(args, is_changed)` (lazy.h:53): the parameter of `is_changed` is a copy; stops at the first that is changed. -/
def flags (g : Glue) : List (LazyRes D) → List (Cp D)
  | [] => []
  | r :: rs => pass g .flag false r ++ if r.isChanged then [] else flags g rs

/-- `transform(args, value)` (lazy.h:55): the parameter of `value` and what it returns, which, being a member, is copied. -/
def reads (g : Glue) : List (LazyRes D) → List (Cp D)
  | [] => []
  | r :: rs => pass g .param false r ++ [⟨.value, false, r.value⟩] ++ reads g rs

/-- The values returned are moved into the new tuple (tuple_algorithms.h:10), but a lone tuple is the new tuple. -/
def packs (rs : List (LazyRes D)) : List (Cp D) :=
  match rs with
  | [r] => match r.value.asTuple with
    | some _ => []
    | none => [⟨.pack, true, r.value⟩]
  | rs => rs.map fun r => ⟨.pack, true, r.value⟩

/-- `std::apply(f, values)` (lazy.h:56): parameters by value. A function used as dependency is behind `<<`, which binds the argument by `std::bind_front`, a copy, from where it is moved (bind_tuple.h:46). -/
def args (f : Fun D W E S) (values : List (Val D)) : List (Cp D) :=
  match f with
  | .regularized _ => values.map fun v => ⟨.arg, false, v⟩
  | .wrapDep _ => values.map (fun v => ⟨.arg, false, v⟩) ++ values.map fun v => ⟨.arg, true, v⟩

/-- `cache = std::move(result)` (lazy.h:59): `result` is const, so this copies. -/
def stores (cache : Cache D) (v : Val D) : List (Cp D) :=
  match cache with
  | .opt _ => [⟨.store, false, v⟩]
  | .rv _ => []

/-- The closure of `detail::lazy` after its dependencies were evaluated (lazy.h:51-65). -/
def tail [CxxData D] (g : Glue) (f : Fun D W E S) (cache : Cache D) (rs : List (LazyRes D)) (env : Env D W S) : List (Cp D) :=
  rs.flatMap (pass g .poll true) ++ (if cache.engaged then flags g rs else []) ++
  if !cache.engaged || any LazyRes.isChanged rs then
    match readValues rs with
    | none => []
    | some values =>
      reads g rs ++ packs rs ++ args f values ++
      match f.call g values env with
      | (.ok result, _, _) => stores cache result ++ makeCore g cache result
      | _ => []
  else
    match cache.deref with
    | some v => makeCore g cache v
    | none => []

mutual
/-- A poll, as `evalN` (lazy.h:38, :50-66, :70-75, regular_void.h:29-38). -/
def copiesN [CxxData D] (g : Glue) : Obj D W E S → Env D W S → List (Cp D)
  | .lazyValue v _, _ => make g v
  | .core f cache deps, env =>
    copiesDeps g deps env ++
    match evalDeps g deps env with
    | (.ok rs, _, env1) => tail g f cache rs env1
    | _ => []
  | .unwrapped inner, env => copiesN g inner env
  | .unregularized inner, env => copiesN g inner env
/-- Polls of dependencies, as `evalDeps` (lazy.h:51). -/
def copiesDeps [CxxData D] (g : Glue) : List (Obj D W E S) → Env D W S → List (Cp D)
  | [], _ => []
  | d :: ds, env =>
    copiesN g d env ++
    match evalN g d env with
    | (.ok _, _, env1) => copiesDeps g ds env1
    | _ => []
end

/-- A call, as `call0`. `self(nullptr).value` (lazy.h:40) is moved if it is a member, copied if it refers to something else. -/
def copies0 [CxxData D] (g : Glue) : Obj D W E S → Env D W S → List (Cp D)
  | .unwrapped inner, env =>
    copiesN g (.unwrapped inner) env ++
    match evalN g (.unwrapped inner) env with
    | (.ok r, _, _) => if r.live then [⟨.out, !g.resultByRef, r.value⟩] else []
    | _ => []
  | .unregularized inner, env => copies0 g inner env
  | _, _ => []

end Pigro.Res
