import Verif.Model.Special
/-!
# What lazy.h asks of types

For every function of lazy.h: which special member functions, and which comparisons, its expressions need, so that they are well-formed. Return types are deduced, so the bodies of the lambdas are
checked when a lazy function is made (the concept `lazy_function` asks for the type of `f(nullptr)`, concepts.h:14-18). Functions are assumed to accept what they are given (C60), and to return
objects or `void`: a returned reference is copied on the way (`auto` as return type, regular_void.h:16, lazy.h:84) and so is like an object.
-/
namespace Pigro.Spc

/-- The type of the result of a user function; `ne`: it has an `operator!=` (lazy.h:47-59). -/
inductive Result where
  | void
  | object (c : Caps) (ne : Bool)

/-- The type of what is remembered: `regular_void` for `void` (regular_void.h:11-13, :19-21). -/
def Result.caps : Result → Caps
  | .void => cls [] []
  | .object c _ => c

/-- `operator!=` of `std::optional` and a value: that of the value, or of the specialisation regular_void.h:67-71. -/
def Result.comparable : Result → Bool
  | .void => true
  | .object _ ne => ne

/-- What `lazy` is given: values, functions with their results, lazy functions (the arguments of lazy.h:96). -/
inductive Given where
  | value (v : Caps)
  | function (f : Caps) (r : Result)
  | lazy (f : Caps) (r : Result) (deps : List Given)

mutual
/-- What is known of its special member functions in Model/Special.lean (the arguments of lazy.h:96). -/
def Given.tree : Given → Tree
  | .value v => .value v
  | .function f r => .function f r.caps
  | .lazy f r ds => .lazy f r.caps (Given.trees ds)
/-- ... of all of them (the arguments of lazy.h:96). -/
def Given.trees : List Given → List Tree
  | [] => []
  | d :: ds => d.tree :: Given.trees ds
end

/-- The type of `dep(nullptr).value`, without reference (lazy.h:47, :72). -/
def Given.valueType : Given → Caps
  | .value v => v
  | .function _ r => r.caps
  | .lazy _ r _ => r.caps

/-- A by-value parameter, initialised with an lvalue (language rule, for lazy.h:46, :50, :69, :70). -/
def param (t : Caps) : Bool := t.copy

/-- `compressed_tuple{ vs... } >> f` or `<< f`, `f` being a lambda (bind_tuple.h:20-58): the values are copied into the tuple, tuple and lambda are moved to where they stay. -/
def bindOk (ms : Bool) (f : Caps) (vs : List Caps) : Bool := constructible ms vs && makeable ms [f, tuple ms vs]

/-- `regularized_void(f)` (regular_void.h:15-25) and `unregularized_void(f)` (regular_void.h:28-38): made from an lvalue, and called with arguments of the given types, the parameters of the lambda
being by value. -/
def wrapOk (ms : Bool) (f : Caps) (args : List Caps) : Bool :=
  param f && bindOk ms (closure false []) [f] && param f && args.all param

/-- `lazy_value(value, changed)` (lazy.h:69-76), and its call. -/
def lazyValueOk (ms : Bool) (v c : Caps) : Bool := bindOk ms (closure false []) [v, c] && param v && param c

/-- `cache != result` and `cache = std::move(result)` (lazy.h:58-59): `result` is const, so it is copied into the cache, by construction or assignment. -/
def assignOk (r : Result) : Bool := r.comparable && r.caps.copy && r.caps.copyAssign

/-- `detail::lazy(f, deps...)` (lazy.h:46-67). `vs`: the types of the values of the dependencies. The closure captures the empty cache by copy (:50) and is copied by `std::bind_front`
(bind_tuple.h:46) whenever it is called; its parameters are by value (:50). `value` returns a copy (:27-29), `transform` (:55) makes a tuple of the copies. -/
def detailLazyOk (ms : Bool) (f : Caps) (r : Result) (deps vs : List Caps) : Bool :=
  (optional r.caps).default && (optional r.caps).copy && bindOk ms (closure true [optional r.caps]) (f :: deps) &&
  (closure true [optional r.caps]).copy && param f && deps.all param &&
  vs.all (·.copy) && vs.all (fun v => v.move || v.copy) &&
  assignOk r

/-- `unwrap_value(f)` (lazy.h:35-44) of an lvalue, polled and called; the call copies the value out of the cache (:40). -/
def unwrapOk (ms : Bool) (f v : Caps) : Bool :=
  param f && bindOk ms (closure false []) [f] && makeable ms [bound ms (closure false []) (tuple ms [f]), closure false []] && param f && v.copy

mutual
/-- `ensure_lazy(dep)` (lazy.h:78-90) of an lvalue that is a value or a function; `pigro::lazy(f, deps...)` (lazy.h:96-103) for a lazy function. A plain function becomes the function of a `detail::lazy` (:83-85), where it is copied into a parameter
when it is called (:84), as is the constant. -/
def Given.ok (ms : Bool) : Given → Bool
  | .value v => param v && lazyValueOk ms v boolConstant
  | .function f r =>
    (match r with | .void => false | .object .. => true) && param f && bindOk ms (closure false []) [f] && param f &&
    lazyValueOk ms int boolConstant &&
    detailLazyOk ms (wrapped ms f) r [lazyValue ms int boolConstant] [int]
  | .lazy f r ds =>
    wrapOk ms f (Given.valueTypes ds) && Given.oks ms ds &&
    detailLazyOk ms (wrapped ms f) r (Spc.deps ms int (Given.trees ds)) (Given.valueTypes ds) &&
    unwrapOk ms (detailLazy ms (wrapped ms f) r.caps (Spc.deps ms int (Given.trees ds))) r.caps &&
    wrapOk ms (unwrapValue ms (detailLazy ms (wrapped ms f) r.caps (Spc.deps ms int (Given.trees ds)))) []
/-- ... of all of them. A lazy function is copied into the parameter (lazy.h:78). -/
def Given.oks (ms : Bool) : List Given → Bool
  | [] => true
  | d :: ds => d.ok ms && (match d with | .lazy .. => param (Spc.dep ms int d.tree) | _ => true) && Given.oks ms ds
/-- The types of their values (lazy.h:47). -/
def Given.valueTypes : List Given → List Caps
  | [] => []
  | d :: ds => d.valueType :: Given.valueTypes ds
end

/-- `pigro::lazy(f, deps...)` (lazy.h:96-103) compiles, as far as special member functions and comparisons matter. -/
def lazyOk (ms : Bool) (f : Caps) (r : Result) (ds : List Given) : Bool := Given.ok ms (.lazy f r ds)

end Pigro.Spc
