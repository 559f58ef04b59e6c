import Verif.Model.Pack
import Verif.Model.ForwardLike
import Verif.Model.Recursive
/-!
# compressed_tuple.h, fwd_capture.h

An object is described by its elements; where an element is an object or refers to one, its description holds the address.
-/
namespace Pigro.Cxx
variable {B V L : Type}

/-- The call operators of the lambdas made by `compressed_tuple_element` (compressed_tuple.h:20, :28, :31), and a generic call
operator `[](auto &&self, auto &&...args)` as added by the binders (bind_tuple.h:25, :41). -/
inductive Lam (B : Type) where
  | empty (tag : Nat) (b : B)
  | constGet (tag : Nat)
  | mutGet (tag : Nat) (ty : Ty B) (addr : Nat)
  | generic
  deriving DecidableEq

/-- What an element consists of: nothing (empty types), or a captured `std::tuple<T>`: an object of type `T`, or, if `T` is
an lvalue reference, a reference to one (compressed_tuple.h:18-35, fwd_capture.h:12-15). -/
inductive Elem (B : Type) where
  | empty (b : B)
  | stored (ty : Ty B) (addr : Nat)
  deriving DecidableEq

/-- `fwd_capture(std::forward<T>(x))` (fwd_capture.h:12-15): `std::tuple<T>{ std::forward<T>(x) }` with `T` deduced: `X &` for an
lvalue, which is captured by reference; `X` for an rvalue, from which a new object is initialised. -/
def fwdCapture (Λ : Lang B V) (e : Expr B) (m : Mem V L) : Elem B × Mem V L :=
  let T := deduceFwd e
  match T.ref with
  | .lref => (.stored T e.addr, m)
  | _ => (.stored T m.next, Λ.initFrom e m)

/-- `access(x)` (fwd_capture.h:17-20) for a captured `std::tuple<T>` used as a (const) lvalue or xvalue: `std::get<0>`, of type
`T &` / `T &&` / `const T &` / `const T &&`. -/
def access (ty : Ty B) (addr : Nat) (c : Bool) (cat : Cat) : Expr B :=
  let t := if c then ty.addConst else ty
  Expr.ofRef (match cat with | .lv => t.addLref | .xv => t.addRref) addr

/-- `compressed_tuple_element<tag>(e)` (compressed_tuple.h:18-23 for empty types, :25-35 otherwise). -/
def compressedTupleElement (Λ : Lang B V) (e : Expr B) (m : Mem V L) : Elem B × Mem V L :=
  if Λ.emptyTy e.type then (.empty e.type.removeCvref.base, m) else fwdCapture Λ e m

/-- The call operators an element contributes to the overload set (compressed_tuple.h:20, :28, :31). -/
def Elem.lams (tag : Nat) : Elem B → List (Lam B)
  | .empty b => [.empty tag b]
  | .stored ty addr => [.constGet tag, .mutGet tag ty addr]

/-- The overload set of a tuple: the elements with their tags (compressed_tuple.h:40-43). -/
def lams (els : List (Elem B)) : List (Lam B) :=
  (els.zipIdx).flatMap fun p => p.1.lams p.2

/-- Whether a call operator accepts a call: on a const callee the `mutable` one is not viable; an `idx_t<tag>` parameter accepts
`idx<tag>` only. `index`: the argument, if it is a lone `idx<I>`. `acc`: the generic operator accepts the arguments (language rule, for compressed_tuple.h:20, :28, :31). -/
def Lam.viable (index : Option Nat) (acc : Bool) (constCallee : Bool) : Lam B → Bool
  | .empty tag _ => decide (index = some tag)
  | .constGet tag => decide (index = some tag)
  | .mutGet tag _ _ => decide (index = some tag) && !constCallee
  | .generic => acc

/-- Whether the call operator is const (compressed_tuple.h:20, :28, :31). -/
def Lam.isConst : Lam B → Bool
  | .mutGet .. => false
  | _ => true

/-- Ranking: on a non-const callee the non-const operator is better (less cv-qualified object parameter); among equals the more
specialised template, i.e. the one that is not generic (language rule, for compressed_tuple.h:28, :31). -/
def Lam.better (constCallee : Bool) (f g : Lam B) : Bool :=
  if !constCallee && (f.isConst != g.isConst) then !f.isConst
  else match f, g with
    | .generic, _ => false
    | _, .generic => true
    | _, _ => false

/-- Which call operator is selected on a callee of given constness (language rule, for compressed_tuple.h:42, :84). -/
def pickLam [DecidableEq B] (ls : List (Lam B)) (index : Option Nat) (acc : Bool) (constCallee : Bool) :
    Ovl.Pick (Lam B) :=
  Ovl.callOverload ls (Lam.viable index acc constCallee) (Lam.better constCallee)

/-- Result of an access (compressed_tuple.h:21, :29, :32). -/
inductive Got (B : Type) where
  | notViable
  | illFormed
  | glvalue (e : Expr B)
  | prvalue (b : B)
  deriving DecidableEq

/-- `o(idx<I>)` for an object `o` with overload set `ls`, derived from `recursive` (recursive.h:15-33): selects the call operator of
`recursive` and then of the elements. `fuel` bounds the nesting of calls (2 suffice: the const operator calls the other one).
* `empty`: a new object made by `empty_object<...>::get()` (compressed_tuple.h:21).
* `mutGet`: `access(forward_like<decltype(self)>(value))` (compressed_tuple.h:32).
* `constGet`: `forward_like<decltype(self)>(as_nonconst(std::forward<decltype(self)>(self))(idx<tag>))` (compressed_tuple.h:29). -/
def callIdx [DecidableEq B] (ls : List (Lam B)) (I : Nat) : Nat → Expr Unit → Got B
  | 0, _ => .illFormed
  | fuel + 1, o =>
    let acc := fun (callee _self : Expr Unit) =>
      match pickLam ls (some I) false callee.c with
      | .pick _ => true
      | _ => false
    match recursiveCall acc o with
    | none => .notViable
    | some (callee, self) =>
      match pickLam ls (some I) false callee.c with
      | .pick (.empty _ b) => .prvalue b
      | .pick (.mutGet _ ty addr) =>
        match forwardLike (declTypeFwd self) (⟨(), false, false, .lv, addr⟩ : Expr Unit) with
        | none => .illFormed
        | some t => .glvalue (access ty addr t.c t.cat)
      | .pick (.constGet _) =>
        match asNonconst self with
        | none => .illFormed
        | some o' =>
          match callIdx ls I fuel o' with
          | .glvalue e =>
            match forwardLike (declTypeFwd self) e with
            | some r => .glvalue r
            | none => .illFormed
          | .prvalue b => .prvalue b
          | r => r
      | _ => .notViable

/-- A tuple object used as an expression: constness and value category (the argument of compressed_tuple.h:84). -/
def tupleExpr (c : Bool) (cat : Cat) : Expr Unit := ⟨(), c, false, cat, 0⟩

/-- `get<I>(t)` (compressed_tuple.h:83-86): `std::forward<T>(t)(idx<I>)`. -/
def get [DecidableEq B] (els : List (Elem B)) (c : Bool) (cat : Cat) (I : Nat) : Got B :=
  callIdx (lams els) I 2 (tupleExpr c cat)

/-- `make_compressed_tuple_base(values...)` (compressed_tuple.h:37-46): the elements made from the items, left to right. -/
def makeBase (Λ : Lang B V) (es : List (Expr B)) (m : Mem V L) : List (Elem B) × Mem V L :=
  enumeratePack (fun items =>
    items.foldl (fun (r : List (Elem B) × Mem V L) item =>
      let x := compressedTupleElement Λ item.value r.2
      (r.1 ++ [x.1], x.2)) ([], m)) es

/-- `static_cast<T>(value)` in the constructor (compressed_tuple.h:59), `value` being the name of a parameter and so an lvalue:
for a value type a new (temporary) object, copied; for a reference type the object itself. `none`: ill-formed. -/
def castArg [DecidableEq B] (Λ : Lang B V) (t : Ty B) (e : Expr B) (m : Mem V L) :
    Option (Expr B × Mem V L) :=
  match t.ref with
  | .none =>
    if e.base = t.base then some (⟨t.base, t.c, t.v, .xv, m.next⟩, Λ.initFrom e.named m) else none
  | _ =>
    if e.base = t.base ∧ (e.c → t.c) ∧ (e.v → t.v) then some (Expr.ofRef t e.addr, m) else none

/-- All casts (compressed_tuple.h:59). -/
def castArgs [DecidableEq B] (Λ : Lang B V) : List (Ty B) → List (Expr B) → Mem V L →
    Option (List (Expr B) × Mem V L)
  | [], [], m => some ([], m)
  | t :: ts, e :: es, m =>
    match castArg Λ t e m with
    | none => none
    | some (e', m1) =>
      match castArgs Λ ts es m1 with
      | none => none
      | some (es', m2) => some (e' :: es', m2)
  | _, _, _ => none

/-- `compressed_tuple<Ts...>(values...)` (compressed_tuple.h:56-60). `none`: ill-formed. -/
def construct [DecidableEq B] (Λ : Lang B V) (ts : List (Ty B)) (es : List (Expr B)) (m : Mem V L) :
    Option (List (Elem B) × Mem V L) :=
  (castArgs Λ ts es m).map fun r => makeBase Λ r.1 r.2

/-- `compressed_tuple<Ts...>()` (compressed_tuple.h:53-54): from new objects `Ts{}...`. -/
def constructDefault (Λ : Lang B V) (ts : List (Ty B)) (m : Mem V L) : List (Elem B) × Mem V L :=
  let m1 := ts.foldl (fun m t => m.alloc (Λ.default t.base)) m
  makeBase Λ (ts.zipIdx.map fun p => ⟨p.1.base, p.1.c, p.1.v, .xv, m.next + p.2⟩) m1

/-- Class template argument deduction for `compressed_tuple{e...}` (compressed_tuple.h:63-64): `std::remove_cvref_t` of each; but for
a single argument that is itself a `compressed_tuple` the copy deduction candidate is more specialised: `none`, a copy. -/
def ctad (isCT : B → Bool) (es : List (Expr B)) : Option (List (Ty B)) :=
  match es with
  | [e] => if isCT e.base then none else some [e.type.removeCvref]
  | _ => some (es.map fun e => e.type.removeCvref)

/-- The elements of a new tuple object initialised from a tuple object with elements `els`, used as a (const) lvalue or
xvalue (implicit copy and move constructor, member by member): objects are copied or moved, references keep referring to the
same object (language rule, for compressed_tuple.h:51-61). -/
def initElems (Λ : Lang B V) (c : Bool) (cat : Cat) : List (Elem B) → Mem V L → List (Elem B) × Mem V L
  | [], m => ([], m)
  | .empty b :: els, m =>
    let r := initElems Λ c cat els m
    (.empty b :: r.1, r.2)
  | .stored ty addr :: els, m =>
    match ty.ref with
    | .lref =>
      let r := initElems Λ c cat els m
      (.stored ty addr :: r.1, r.2)
    | _ =>
      let r := initElems Λ c cat els (Λ.initFrom ⟨ty.base, ty.c || c, ty.v, cat, addr⟩ m)
      (.stored ty m.next :: r.1, r.2)

/-- `compressed_tuple<Ts...> t2(t)`. For one element the constructor template (compressed_tuple.h:56-60) is the better match unless
`t` is a const lvalue or a non-const rvalue; it then converts the whole tuple to the element type, which is ill-formed (`none`;
element types that can be made from a `compressed_tuple` are not modelled). -/
def initTuple (Λ : Lang B V) (c : Bool) (cat : Cat) (els : List (Elem B)) (m : Mem V L) :
    Option (List (Elem B) × Mem V L) :=
  match els, c, cat with
  | [_], false, .lv => none
  | [_], true, .xv => none
  | _, _, _ => some (initElems Λ c cat els m)

/-- The partial specialisations of `std::tuple_size` / `std::tuple_element` that can apply to a (qualified) `compressed_tuple`: the
one of the header (compressed_tuple.h:92-98) for everything that is a `compressed_tuple` after `remove_cvref`, and the ones of the
standard library for `const T`, `volatile T` and `const volatile T`. -/
inductive TupleSpec where
  | header
  | const
  | volatile
  | constVolatile
  deriving DecidableEq

/-- Whether the specialisation matches the type `q` (a qualified `compressed_tuple`) (language rule, for compressed_tuple.h:92-98). -/
def TupleSpec.viable (q : Ty Unit) : TupleSpec → Bool
  | .header => true
  | .const => q.isConst
  | .volatile => q.isVolatile
  | .constVolatile => q.isConst && q.isVolatile

/-- Partial ordering: by the pattern of the argument; constraints only count for equivalent patterns (language rule, for compressed_tuple.h:92-98). -/
def TupleSpec.better : TupleSpec → TupleSpec → Bool
  | .constVolatile, .constVolatile => false
  | .constVolatile, _ => true
  | .const, .header => true
  | .volatile, .header => true
  | _, _ => false

/-- The specialisation chosen for the type `q` (language rule, for compressed_tuple.h:92-98). -/
def tupleSpec (q : Ty Unit) : Ovl.Pick TupleSpec :=
  Ovl.resolve (TupleSpec.viable q) TupleSpec.better [.header, .const, .volatile, .constVolatile]

/-- `std::tuple_size_v<Q>` (compressed_tuple.h:92-94): that of `std::tuple<Ts...>`; the ones of the standard library refer to the
unqualified type. -/
def tupleSize (ts : List (Ty B)) (q : Ty Unit) : Option Nat :=
  match tupleSpec q with
  | .pick _ => some ts.length
  | _ => none

/-- `std::tuple_element_t<I, Q>` (compressed_tuple.h:96-98): that of `std::tuple<Ts...>`; the ones of the standard library add the
qualifiers. `none`: ill-formed. -/
def tupleElement (ts : List (Ty B)) (q : Ty Unit) (I : Nat) : Option (Ty B) :=
  match tupleSpec q with
  | .pick .header => ts[I]?
  | .pick .const => ts[I]?.map Ty.addConst
  | .pick .volatile => ts[I]?.map Ty.addVolatile
  | .pick .constVolatile => ts[I]?.map fun t => t.addConst.addVolatile
  | _ => none

end Pigro.Cxx
