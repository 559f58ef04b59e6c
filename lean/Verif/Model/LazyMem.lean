import Verif.Model.Regularize
import Verif.Model.History
/-!
# lazy.h on top of the models of bind_tuple.h and compressed_tuple.h

The same code as in `Model/Lazy.lean`, one level lower: objects lie in memory, the lambdas of lazy.h and regular_void.h are bound and called
through `makeBound` and `Bound.call`, parameters are new objects, temporaries end their lifetime, and a `LazyResult` holds an address. No
assumption about copies or lifetimes is made here.

Types may be empty: an element of empty type is not stored in a `compressed_tuple`, but made anew when it is asked for. Which callables and
values of the user are of empty type is arbitrary (`Empties`); for the objects made by the library it follows.

Simplifications. An object of class type is one memory cell; to call it, its members are laid out in cells of their own (`layout`) and
afterwards written back. These cells end with the function the object is a parameter of (`ending`), and otherwise not, so that a reference to a
member of a temporary that is no parameter would never count as dangling (there is no such reference).
Objects are called as non-const lvalues, as all callers in lazy.h do; for clients that do not, see Model/LazyAs.lean.
-/
namespace Pigro.LM
open Cxx
variable {D W E S : Type}

/-- What a memory cell holds. `func`: an `f` of `detail::lazy`; `user`: a callable of the user; `cache`: the closure of lazy.h:50, whose only
capture is `cache` (`f` and `deps` are shadowed by parameters); `flag`: a `std::bool_constant`; `unit`: `nullptr` and captureless lambdas. -/
inductive MV (D W E S : Type) where
  | obj (o : Obj D W E S)
  | func (f : Fun D W E S)
  | user (u : UFn D W E S)
  | val (v : Val D)
  | cache (c : Cache D)
  | flag (b : Bool)
  | unit

/-- The lambdas without captures (lazy.h:38, :70, :84, regular_void.h:16, :29). -/
inductive LamId where
  | value        -- lazy.h:70
  | unwrap       -- lazy.h:38
  | poll         -- lazy.h:84
  | regularize   -- regular_void.h:16
  | unregularize -- regular_void.h:29
  deriving DecidableEq

/-- Empty types other than lambdas and `std::bool_constant`: numbers for those of the user; and bound callables (`closure_t` of a lambda without
captures and a `compressed_tuple` whose elements are of empty type) (concepts.h:23-24, of lazy.h:69-103). -/
inductive ETy where
  | user (k : Nat)
  | val (k : Nat)
  | regularized (k : Nat)
  | wrapDep (k : Nat)
  | lazyValue (k : Nat) (changed : Bool)
  deriving DecidableEq

/-- Unqualified types, as far as the headers distinguish them. `emptyTuple`: a `compressed_tuple` whose elements are of empty type (of lazy.h:35-103). -/
inductive LB where
  | obj
  | func
  | user
  | val
  | closure
  | flag (b : Bool)
  | nullptr
  | lam (k : LamId)
  | tuple
  | emptyTuple
  | empty (t : ETy)
  deriving DecidableEq

/-- `std::is_empty_v`: captureless lambdas, `std::bool_constant`, and `ETy` (concepts.h:23-24). -/
def LB.isEmpty : LB → Bool
  | .lam _ => true
  | .flag _ => true
  | .emptyTuple => true
  | .empty _ => true
  | _ => false

/-- Which callables and which values of the user are of empty type, and of which one. An empty type has one value (the `f` and `deps` of lazy.h:96; concepts.h:23-24). -/
structure Empties (D W E S : Type) where
  fn : UFn D W E S → Option Nat
  val : Val D → Option Nat
  fnOf : Nat → Option (UFn D W E S)
  valOf : Nat → Option (Val D)
  fn_one : ∀ u k, fn u = some k → fnOf k = some u
  val_one : ∀ v k, val v = some k → valOf k = some v

/-- The type of an object. An object with a cache, and one that contains it, is not of empty type; the others are if their members are (lazy.h:35-103, regular_void.h:15-39). -/
def Empties.base (Θ : Empties D W E S) : MV D W E S → LB
  | .obj (.lazyValue v c) => match Θ.val v with
    | some k => .empty (.lazyValue k c)
    | none => .obj
  | .obj _ => .obj
  | .func (.regularized u) => match Θ.fn u with
    | some k => .empty (.regularized k)
    | none => .func
  | .func (.wrapDep u) => match Θ.fn u with
    | some k => .empty (.wrapDep k)
    | none => .func
  | .user u => match Θ.fn u with
    | some k => .empty (.user k)
    | none => .user
  | .val v => match Θ.val v with
    | some k => .empty (.val k)
    | none => .val
  | .cache _ => .closure
  | .flag b => .flag b
  | .unit => .nullptr

/-- The object of an empty type (empty_object.h:23-32). -/
def Empties.value (Θ : Empties D W E S) (t : ETy) : Option (MV D W E S) :=
  match t with
  | .user k => (Θ.fnOf k).map .user
  | .val k => (Θ.valOf k).map .val
  | .regularized k => (Θ.fnOf k).map fun u => .func (.regularized u)
  | .wrapDep k => (Θ.fnOf k).map fun u => .func (.wrapDep u)
  | .lazyValue k c => (Θ.valOf k).map fun v => .obj (.lazyValue v c)

/-- A `Lang` together with the types of objects (of lazy.h:35-103). -/
structure LLang (D W E S : Type) extends Lang LB (MV D W E S) where
  base : MV D W E S → LB

instance : CoeOut (LLang D W E S) (Lang LB (MV D W E S)) := ⟨LLang.toLang⟩

/-- Types and values of this model. `moved`: what a moved-from object holds; arbitrary (of lazy.h:35-103). -/
def lang (Θ : Empties D W E S) (moved : MV D W E S → MV D W E S) : LLang D W E S where
  isEmpty := LB.isEmpty
  emptyVal := fun b => match b with
    | .flag b => .flag b
    | .empty t => (Θ.value t).getD .unit
    | _ => .unit
  moved := moved
  default := fun _ => .unit
  base := Θ.base

/-- None of the types is an `idx_t` (utils.h:12-13). -/
def noIdx : LB → Option Nat := fun _ => none

/-- `compressed_tuple` types (compressed_tuple.h:70-77). -/
def isCT : LB → Bool
  | .tuple => true
  | .emptyTuple => true
  | _ => false

/-- A `LazyResult` (lazy.h:17-21): the member `value` is a reference (the address of the object) or a value. -/
structure LRes (D : Type) where
  value : Nat ⊕ Val D
  isChanged : Bool

/-- Read an object through a reference: `none` is undefined behaviour (the object does not exist any more). A reference made by
dereferencing a `std::optional` refers to the value inside (lazy.h:28, :40). -/
def LRes.read (m : Mem (MV D W E S) (Env D W S)) (r : LRes D) : Option (Val D) :=
  match r.value with
  | .inr v => some v
  | .inl a =>
    if m.alive a then
      match m.get a with
      | .val v => some v
      | .cache (.opt (some v)) => some v
      | _ => none
    else none

/-- The memory of this model; the world is the environment of the user functions (of lazy.h:35-103). -/
abbrev LMem (D W E S : Type) := Mem (MV D W E S) (Env D W S)

/-- Code with exceptions (of lazy.h:35-103). -/
abbrev LCode (D W E S R : Type) := Code LB (MV D W E S) (Env D W S) (Out E R)

/-- The static type of an `f` of `detail::lazy` (the `f` of lazy.h:46). -/
inductive FunSh where
  | regularized
  | wrapDep
  deriving DecidableEq

/-- The static type of a lazy object, as far as it decides what code is run (lazy.h:35-103). -/
inductive Sh where
  | lazyValue (changed : Bool)
  | core (f : FunSh) (deps : List Sh)
  | unwrapped (inner : Sh)
  | unregularized (inner : Sh)

/-- The type of a function object (the `f` of lazy.h:46). -/
def funSh : Fun D W E S → FunSh
  | .regularized _ => .regularized
  | .wrapDep _ => .wrapDep

mutual
/-- The type of an object (lazy.h:35-103). -/
def sh : Obj D W E S → Sh
  | .lazyValue _ c => .lazyValue c
  | .core f _ deps => .core (funSh f) (shL deps)
  | .unwrapped inner => .unwrapped (sh inner)
  | .unregularized inner => .unregularized (sh inner)
/-- The types of several objects (the `deps` of lazy.h:46). -/
def shL : List (Obj D W E S) → List Sh
  | [] => []
  | o :: os => sh o :: shL os
end

/-- Objects in cells of their own: the elements of a `std::tuple` (compressed_tuple.h:25-35). -/
def placeAll : List (LB × MV D W E S) → LMem D W E S → List (Elem LB) × LMem D W E S
  | [], m => ([], m)
  | x :: xs, m =>
    let r := placeAll xs (m.alloc x.2)
    (.stored ⟨x.1, false, false, .none⟩ m.next :: r.1, r.2)

/-- Lay out the elements of a `compressed_tuple`, in cells of their own, except for those of empty type, for which nothing is stored
(compressed_tuple.h:18-23). -/
def layout (Λ : LLang D W E S) : List (MV D W E S) → LMem D W E S → List (Elem LB) × LMem D W E S
  | [], m => ([], m)
  | x :: xs, m =>
    if Λ.isEmpty (Λ.base x) then
      let r := layout Λ xs m
      (.empty (Λ.base x) :: r.1, r.2)
    else
      let r := layout Λ xs (m.alloc x)
      (.stored ⟨Λ.base x, false, false, .none⟩ m.next :: r.1, r.2)

/-- The tuple with these elements, a member of the object at `addr` (lazy.h:38, :50, :70, :84, regular_void.h:16, :29). -/
def tupleOf (els : List (Elem LB)) (addr : Nat) : Elem LB :=
  if els.all fun el => match el with | .empty _ => true | .stored .. => false then .empty .emptyTuple
  else .stored ⟨.tuple, false, false, .none⟩ addr

/-- The value of an element of a compressed tuple (compressed_tuple.h:21, :32). -/
def elemVal (Λ : LLang D W E S) (m : LMem D W E S) : Elem LB → MV D W E S
  | .empty b => Λ.emptyVal b
  | .stored _ a => m.get a

/-- The elements of a pack that are all lazy objects (the `deps` of lazy.h:50). -/
def asObjs : List (MV D W E S) → Option (List (Obj D W E S))
  | [] => some []
  | .obj o :: xs => (asObjs xs).map (o :: ·)
  | _ :: _ => none

/-! The object a bound callable is, from its lambda and the elements of its tuple. -/

/-- regular_void.h:16 -/
def asRegularized (_ : MV D W E S) : List (MV D W E S) → Option (MV D W E S)
  | [.user u] => some (.func (.regularized u))
  | _ => none

/-- regular_void.h:29 -/
def asUnregularized (_ : MV D W E S) : List (MV D W E S) → Option (MV D W E S)
  | [.obj o] => some (.obj (.unregularized o))
  | _ => none

/-- lazy.h:36-38 -/
def asUnwrapped (_ : MV D W E S) : List (MV D W E S) → Option (MV D W E S)
  | [.obj o] => some (.obj (.unwrapped o))
  | _ => none

/-- lazy.h:70 -/
def asLazyValue (_ : MV D W E S) : List (MV D W E S) → Option (MV D W E S)
  | [.val v, .flag c] => some (.obj (.lazyValue v c))
  | _ => none

/-- lazy.h:84 -/
def asWrapDep (_ : MV D W E S) : List (MV D W E S) → Option (MV D W E S)
  | [.user u] => some (.func (.wrapDep u))
  | _ => none

/-- lazy.h:50 -/
def asCore (lam : MV D W E S) (xs : List (MV D W E S)) : Option (MV D W E S) :=
  match lam, xs with
  | .cache c, .func F :: xs => (asObjs xs).map fun os => .obj (.core F c os)
  | _, _ => none

/-- What the program finds when it uses the object at `a`. An object that does not exist (any more) is `unit`, which no code below accepts: using
it is undefined behaviour (language rule, for lazy.h:28, :40, :51). -/
def look (m : LMem D W E S) (a : Nat) : MV D W E S := if m.alive a then m.get a else .unit

/-- The values of argument expressions. `none`: undefined behaviour (regular_void.h:20, :23). -/
def readArgs (m : LMem D W E S) : List (Expr LB) → Option (List (Val D))
  | [] => some []
  | e :: es =>
    match look m e.addr, readArgs m es with
    | .val v, some vs => some (v :: vs)
    | _, _ => none

/-- Invoking a callable of the user that is the object `callee`, as done by `f(args...)` (regular_void.h:20, :23) and `dep()`
(lazy.h:84). The result `void` is turned into `regular_void` right here (regular_void.h:19-21); user code gets the values of its arguments. -/
def userCode (k : Kind) : LCode D W E S (Val D) := fun callee args m =>
  match look m callee.addr, readArgs m args with
  | .user u, some vs =>
    match u.invoke k vs m.world with
    | (.ok v, u', env') => (.ok (u.ret.regularize v), ({ m with world := env' } : LMem D W E S).write callee.addr (.user u'))
    | (.error e, u', env') => (.thrown e, ({ m with world := env' } : LMem D W E S).write callee.addr (.user u'))
  | _, _ => (.ub, m)

/-- The body of a function with by-value parameters. What is made in it, in particular the cells of members of its parameters, ends with it (language rule, for lazy.h:38, :50, :70, :84, regular_void.h:16, :29). -/
def ending {A R : Type} (body : A → LMem D W E S → R × LMem D W E S) : A → LMem D W E S → R × LMem D W E S := fun a m =>
  let r := body a m
  (r.1, r.2.killRange m.next r.2.next)

/-- The lambda of `regularized_void` (regular_void.h:16-25): `(auto f, auto... args)`. -/
def regularizeLam (Λ : LLang D W E S) : LCode D W E S (Val D) := fun _ args m =>
  valueParams Λ (ending fun ps m =>
    match ps with
    | f :: args => userCode .fn f args m
    | [] => (.illFormed, m)) args m

/-- The lambda of `ensure_lazy` (lazy.h:84): `(auto, auto dep)`. -/
def pollLam (Λ : LLang D W E S) : LCode D W E S (Val D) := fun _ args m =>
  valueParams Λ (ending fun ps m =>
    match ps with
    | [_, dep] => userCode .dep dep [] m
    | _ => (.illFormed, m)) args m

/-- Call the bound callable `b`, the object `callee`; its members have been laid out, which has turned the memory `m0` into `m`. Afterwards
the object is what has become of its members (`mk`) (bind_tuple.h:22-32, :38-48). -/
def callBound {R : Type} (Λ : LLang D W E S) (b : Bound LB) (code : LCode D W E S R)
    (mk : MV D W E S → List (MV D W E S) → Option (MV D W E S)) (callee : Expr LB) (args : List (Expr LB)) (m0 m : LMem D W E S) :
    Out E R × LMem D W E S :=
  match b.call Λ noIdx code callee.c callee.cat args m with
  | .invoked r m' =>
    (r, m'.write callee.addr ((mk (elemVal Λ m' b.f) (b.els.map (elemVal Λ m'))).getD (m0.get callee.addr)))
  | _ => (.illFormed, m0)

/-- Calling the `f` of `detail::lazy` that is the object `callee`: `compressed_tuple{ f } >> ...` (regular_void.h:16) or
`compressed_tuple{ dep } << ...` (lazy.h:84). -/
def funCode (Λ : LLang D W E S) (k : FunSh) : LCode D W E S (Val D) := fun callee args m =>
  match k, look m callee.addr with
  | .regularized, .func (.regularized u) =>
    let p := layout Λ [.user u] m
    callBound Λ ⟨.front, .empty (.lam .regularize), tupleOf p.1 callee.addr, p.1⟩ (regularizeLam Λ) asRegularized callee args m p.2
  | .wrapDep, .func (.wrapDep u) =>
    let p := layout Λ [.user u] m
    callBound Λ ⟨.back, .empty (.lam .poll), tupleOf p.1 callee.addr, p.1⟩ (pollLam Λ) asWrapDep callee args m p.2
  | _, _ => (.ub, m)

/-- `LazyResult{ x, changed }` for an lvalue `x`, the object at `addr` (lazy.h:23-24: the member is a reference). With `byRef = false`:
what it would be without that deduction guide. -/
def mkResult (byRef : Bool) (addr : Nat) (v : Val D) (changed : Bool) : LRes D :=
  ⟨if byRef then .inl addr else .inr v, changed⟩

/-- `return LazyResult{ *cache, changed };` (lazy.h:62-65), `cache` being the capture of the closure at `addr`. `*cache` is the object inside
a `std::optional`; for `std::optional<regular_void>` it is a temporary (regular_void.h:59). -/
def coreResult (byRef : Bool) (addr : Nat) (changed : Bool) (m : LMem D W E S) : Out E (LRes D) × LMem D W E S :=
  match look m addr with
  | .cache (.opt (some v)) => (.ok (mkResult byRef addr v changed), m)
  | .cache (.rv _) => (.ok (mkResult byRef m.next .rvoid changed), (m.alloc (.val .rvoid)).kill m.next)
  | _ => (.ub, m)

/-- The reads of `transform(args, value)` (lazy.h:55, lazy.h:27-29). -/
def readResults (m : LMem D W E S) : List (LRes D) → Option (List (Val D))
  | [] => some []
  | r :: rs =>
    match r.read m, readResults m rs with
    | some v, some vs => some (v :: vs)
    | _, _ => none

/-- The lvalues denoting the elements of a `const std::tuple` (lazy.h:55-56). -/
def constRefs : List (Elem LB) → List (Expr LB)
  | [] => []
  | .stored ty a :: els => ⟨ty.base, true, false, .lv, a⟩ :: constRefs els
  | .empty b :: els => ⟨b, true, false, .lv, 0⟩ :: constRefs els

/-- The body of the closure of `detail::lazy` (lazy.h:50-66). `callee`: the closure; `ps`: its parameters; `evalDeps`: the calls
`deps(nullptr)...`. The locals `args` and `result` are not laid out in memory. -/
def coreBody [CxxData D] (Λ : LLang D W E S) (byRef : Bool) (k : FunSh)
    (evalDeps : List (Expr LB) → LMem D W E S → Out E (List (LRes D)) × LMem D W E S)
    (callee : Expr LB) (ps : List (Expr LB)) (m : LMem D W E S) : Out E (LRes D) × LMem D W E S :=
  match ps with
  | _ :: f :: deps =>
    match evalDeps deps m with
    | (.ok rs, m1) =>
      match look m1 callee.addr with
      | .cache cache =>
        if !cache.engaged || any LRes.isChanged rs then
          match readResults m1 rs with
          | none => (.ub, m1)
          | some vs =>
            let p := placeAll ((tupleCTAD Val.asTuple vs).map fun v => (Λ.base (.val v), .val v)) m1
            match funCode Λ k f (constRefs p.1) p.2 with
            | (.ok result, m2) =>
              let m3 := (({ m2 with world := { m2.world with log := m2.world.log ++ cmpEvents cache result } } : LMem D W E S).write
                callee.addr (.cache (cache.assign result)))
              let r := coreResult byRef callee.addr (cache.ne result) m3
              (r.1, r.2.killRange m1.next p.2.next)
            | (o, m2) => (o.map (fun _ => mkResult byRef 0 .rvoid false), m2.killRange m1.next p.2.next)
        else coreResult byRef callee.addr false m1
      | _ => (.ub, m1)
    | (o, m1) => (o.map (fun _ => mkResult byRef 0 .rvoid false), m1)
  | _ => (.illFormed, m)

/-- The closure of `detail::lazy`: `(std::nullptr_t, auto f, auto... deps)` (lazy.h:50). -/
def coreLam [CxxData D] (Λ : LLang D W E S) (byRef : Bool) (k : FunSh)
    (evalDeps : List (Expr LB) → LMem D W E S → Out E (List (LRes D)) × LMem D W E S) : LCode D W E S (LRes D) :=
  fun callee args m => valueParams Λ (ending (coreBody Λ byRef k evalDeps callee)) args m

/-- The lambda of `lazy_value`: `(std::nullptr_t, auto value, auto changed)` (lazy.h:70-75). -/
def valueLam (Λ : LLang D W E S) (byRef : Bool) : LCode D W E S (LRes D) := fun _ args m =>
  valueParams Λ (ending fun ps m =>
    match ps with
    | [_, value, changed] =>
      match look m value.addr, look m changed.addr with
      | .val v, .flag b => (.ok (mkResult byRef value.addr v b), m)
      | _, _ => (.ub, m)
    | _ => (.illFormed, m)) args m

/-- A call with the argument `nullptr`, a temporary (lazy.h:38, :40, :51). -/
def withNullptr {R : Type} (code : LCode D W E S R) (callee : Expr LB) (m : LMem D W E S) : Out E R × LMem D W E S :=
  let r := code callee [⟨.nullptr, false, false, .xv, m.next⟩] (m.alloc .unit)
  (r.1, r.2.kill m.next)

/-- The first lambda of `unwrap_value`: `(auto &self, std::nullptr_t, auto f)` (lazy.h:38); `self` is a reference and not used. -/
def unwrapLam (Λ : LLang D W E S) (inner : LCode D W E S (LRes D)) : LCode D W E S (LRes D) := fun _ args m =>
  valueParams Λ (ending fun ps m =>
    match ps with
    | [_, f] => withNullptr inner f m
    | _ => (.illFormed, m)) (args.drop 1) m

/-- The lambda of `unregularized_void`: `(auto f, auto... args)` (regular_void.h:29-38). `isRegular`: the result type of the call is
`regular_void`; then nothing is returned. -/
def unregularizeLam {R : Type} (Λ : LLang D W E S) (inner : LCode D W E S R) : LCode D W E S R := fun _ args m =>
  valueParams Λ (ending fun ps m =>
    match ps with
    | f :: args => inner f args m
    | [] => (.illFormed, m)) args m

/-- A call of `compressed_tuple{ f } >> [](auto f, auto... args) mutable {...}` (regular_void.h:29), the object `callee`. -/
def unregularizedCode {R : Type} (Λ : LLang D W E S) (inner : LCode D W E S R) : LCode D W E S R := fun callee args m =>
  match look m callee.addr with
  | .obj (.unregularized o) =>
    let p := layout Λ [.obj o] m
    callBound Λ ⟨.front, .empty (.lam .unregularize), tupleOf p.1 callee.addr, p.1⟩ (unregularizeLam Λ inner) asUnregularized callee args m p.2
  | _ => (.ub, m)

mutual
/-- Calling a lazy object with one argument, `nullptr` (lazy.h:38, :50-66, :70-75, regular_void.h:29-38). -/
def callN [CxxData D] (Λ : LLang D W E S) (byRef : Bool) : Sh → LCode D W E S (LRes D)
  -- lazy.h:70: `compressed_tuple{ value, changed } << ...`
  | .lazyValue _ => fun callee args m =>
    match look m callee.addr with
    | .obj (.lazyValue v c) =>
      let p := layout Λ [.val v, .flag c] m
      callBound Λ ⟨.back, .empty (.lam .value), tupleOf p.1 callee.addr, p.1⟩ (valueLam Λ byRef) asLazyValue callee args m p.2
    | _ => (.ub, m)
  -- lazy.h:50: `compressed_tuple{ f, deps... } << ...`
  | .core k deps => fun callee args m =>
    match look m callee.addr with
    | .obj (.core f cache ds) =>
      let p := layout Λ (.func f :: ds.map .obj) (m.alloc (.cache cache))
      callBound Λ ⟨.back, .stored ⟨.closure, false, false, .none⟩ m.next, tupleOf p.1 callee.addr, p.1⟩
        (coreLam Λ byRef k (callDeps Λ byRef deps)) asCore callee args m p.2
    | _ => (.ub, m)
  -- lazy.h:36-38: `recursive` (recursive.h) passes the object itself on as first argument; the bound callable is selected because it
  -- accepts two arguments, the other lambda (lazy.h:39) one
  | .unwrapped inner => fun callee args m =>
    match look m callee.addr with
    | .obj (.unwrapped o) =>
      let p := layout Λ [.obj o] m
      callBound Λ ⟨.back, .empty (.lam .unwrap), tupleOf p.1 callee.addr, p.1⟩ (unwrapLam Λ (callN Λ byRef inner)) asUnwrapped callee
        (callee :: args) m p.2
    | _ => (.ub, m)
  | .unregularized inner => unregularizedCode Λ (callN Λ byRef inner)
/-- `std::tuple{ deps(nullptr)... }` (lazy.h:51): left to right; the temporaries live until the end of the full expression. -/
def callDeps [CxxData D] (Λ : LLang D W E S) (byRef : Bool) : List Sh → List (Expr LB) → LMem D W E S →
    Out E (List (LRes D)) × LMem D W E S
  | [], _, m => (.ok [], m)
  | s :: ss, es, m =>
    match es with
    | [] => (.illFormed, m)
    | e :: es =>
      match callN Λ byRef s e [⟨.nullptr, false, false, .xv, m.next⟩] (m.alloc .unit) with
      | (.ok r, m1) =>
        let x := callDeps Λ byRef ss es m1
        (x.1.map (r :: ·), x.2.kill m.next)
      | (o, m1) => (o.map (fun _ => []), m1.kill m.next)
end

/-- Is the static type of `value` `regular_void`? As `Obj.valueIsRV`, a fact about types; taken from the object (regular_void.h:32). -/
def voidResult (isRV : Bool) (o : Out E (Option (Val D))) : Out E (Option (Val D)) :=
  o.map fun v => if isRV then none else v

/-- Calling a lazy object without arguments; only objects made by `unwrap_value` and the facade around them have such a call operator (lazy.h:39-41, regular_void.h:29-38). -/
def callZ [CxxData D] (Λ : LLang D W E S) (byRef : Bool) : Sh → LCode D W E S (Option (Val D))
  -- lazy.h:39-41: `self(nullptr).value`
  | .unwrapped inner => fun callee _ m =>
    let r := withNullptr (callN Λ byRef (.unwrapped inner)) callee m
    match r.1 with
    | .ok x =>
      match x.read r.2 with
      | some v => (.ok (some v), r.2)
      | none => (.ub, r.2)
    | o => (o.map (fun _ => none), r.2)
  -- regular_void.h:28-39
  | .unregularized inner => fun callee args m =>
    match look m callee.addr with
    | .obj o =>
      let r := unregularizedCode Λ (callZ Λ byRef inner) callee args m
      (voidResult o.valueIsRV r.1, r.2)
    | _ => (.ub, m)
  | _ => fun _ _ m => (.illFormed, m)

end Pigro.LM
