import Verif.Model.CompressedTuple
/-!
# Special member functions

Which of the classes of the library can be default constructed, copied, moved and assigned, by the rules of C++20 for implicitly declared special member functions ([class.ctor], [class.copy.ctor],
[class.copy.assign]) and for closure types ([expr.prim.lambda.closure]: copyable and movable as their captures; with a lambda-capture neither default constructible nor assignable). With `ms` for
the variant of overload.h for the Microsoft compiler. No `volatile`.
-/
namespace Pigro.Spc

/-- What can be done with objects of a type: `std::is_empty`, `std::default_initializable`, `std::is_copy_constructible`, `std::is_move_constructible`, `std::is_copy_assignable`,
`std::is_move_assignable` (compressed_tuple.h:53, overload.h:21). -/
structure Caps where
  empty : Bool
  default : Bool
  copy : Bool
  move : Bool
  copyAssign : Bool
  moveAssign : Bool
  deriving DecidableEq

/-- A class without user-declared constructors or assignment operators. A defaulted move that would be deleted is ignored, a copy is made instead (language rule, for compressed_tuple.h:51-61, recursive.h:11-34). -/
def cls (bases members : List Caps) : Caps where
  empty := bases.all (·.empty) && members.isEmpty
  default := (bases ++ members).all (·.default)
  copy := (bases ++ members).all (·.copy)
  move := (bases ++ members).all (·.move) || (bases ++ members).all (·.copy)
  copyAssign := (bases ++ members).all (·.copyAssign)
  moveAssign := (bases ++ members).all (·.moveAssign) || (bases ++ members).all (·.copyAssign)

/-- A closure type. `capture`: there is a lambda-capture (possibly `[=]` with nothing captured) (language rule, for compressed_tuple.h:20, :28, :31, lazy.h:50). -/
def closure (capture : Bool) (captures : List Caps) : Caps where
  empty := captures.isEmpty
  default := !capture
  copy := captures.all (·.copy)
  move := captures.all (·.move) || captures.all (·.copy)
  copyAssign := !capture
  moveAssign := !capture

/-- `std::tuple<T>`: as its element (standard library, for fwd_capture.h:14). -/
def stdTuple (t : Caps) : Caps := { t with empty := false }

/-- `std::tuple<T &>`: copied as a reference, never made without an argument; assigned through the reference (standard library, for fwd_capture.h:14). -/
def stdTupleRef (t : Caps) : Caps := ⟨false, false, true, true, t.copyAssign, t.copyAssign⟩

/-- `std::optional<T>`: copied and moved as its value; assignment needs construction and assignment (standard library, for lazy.h:49). -/
def optional (t : Caps) : Caps :=
  ⟨false, true, t.copy, t.move || t.copy, t.copy && t.copyAssign, (t.move && t.moveAssign) || (t.copy && t.copyAssign)⟩

/-- `overload<Fs...>`: an aggregate (overload.h:35-38), or with constructors (overload.h:20-30, and :32-33 for none). -/
def overload (ms : Bool) (fs : List Caps) : Caps :=
  if ms then
    match fs with
    | [] => cls [] []
    | _ => { cls [cls fs []] [] with default := false }
  else cls fs []

/-- `recursive<F>` (recursive.h:11-34) -/
def recursive (f : Caps) : Caps := cls [f] []

/-- What `compressed_tuple_element` returns for a value of type `T` (compressed_tuple.h:18-35). -/
def element (ms : Bool) (t : Caps) : Caps :=
  if t.empty then closure false [] else overload ms [closure false [], closure true [stdTuple t]]

/-- Whether `make_compressed_tuple_base` can be called with prvalues of these types (compressed_tuple.h:37-46): stored values are moved into their closures (:31), which the constructors of the
Microsoft variant copy. -/
def makeable (ms : Bool) (ts : List Caps) : Bool := ts.all fun t => t.empty || (t.move && (!ms || t.copy))

/-- `compressed_tuple<Ts...>` (compressed_tuple.h:51-61). Its constructors hinder no implicit copy, move or assignment. -/
def tuple (ms : Bool) (ts : List Caps) : Caps :=
  { cls [recursive (overload ms (ts.map (element ms)))] [] with default := ts.all (·.default) && makeable ms ts }

/-- Whether `compressed_tuple{ values... }` can be made from values of these types (compressed_tuple.h:56-60): `static_cast<T>(value)` copies, `value` being an lvalue. -/
def constructible (ms : Bool) (ts : List Caps) : Bool := ts.all (·.copy) && makeable ms ts

/-- What `bind_front_tuple(f, t)` and `bind_back_tuple(f, t)` return for rvalues (bind_tuple.h:20-50). -/
def bound (ms : Bool) (f t : Caps) : Caps := recursive (overload ms [element ms f, element ms t, closure false []])

/-- What `compressed_tuple_element` returns for an lvalue of type `T`: a reference is captured (compressed_tuple.h:18-35, fwd_capture.h:12-15). -/
def elementRef (ms : Bool) (t : Caps) : Caps :=
  if t.empty then closure false [] else overload ms [closure false [], closure true [stdTupleRef t]]

/-- What `bind_front_tuple(f, t)` and `bind_back_tuple(f, t)` return if `f` (`fl`) or `t` (`tl`) are lvalues (bind_tuple.h:20-50). -/
def boundOf (ms fl tl : Bool) (f t : Caps) : Caps :=
  recursive (overload ms [if fl then elementRef ms f else element ms f, if tl then elementRef ms t else element ms t, closure false []])

/-- `Uncaptured<T, tag>` (uncapture.h:12-25) -/
def uncaptured (t : Caps) : Caps := if t.empty then { cls [] [] with default := false } else cls [] [t]

/-- `uncaptured(v...) >> f` (uncapture.h:27-71): `CompressedInvocable` has a constructor (:40). -/
def uncapture (f : Caps) : List Caps → Caps
  | [] => f
  | v :: vs => { cls [uncaptured v, uncapture f vs] [] with default := false }

/-! ### lazy.h -/

/-- `std::bool_constant<b>` (lazy.h:85, :89) -/
def boolConstant : Caps := cls [] []

/-- `regularized_void(f)` (regular_void.h:15-25) and `unregularized_void(f)` (:28-38); the `f` made of a plain function (lazy.h:83-84). -/
def wrapped (ms : Bool) (f : Caps) : Caps := bound ms (closure false []) (tuple ms [f])

/-- `lazy_value(value, changed)` (lazy.h:69-76) -/
def lazyValue (ms : Bool) (v c : Caps) : Caps := bound ms (closure false []) (tuple ms [v, c])

/-- `detail::lazy(f, deps...)` (lazy.h:46-66): the closure is `[=]` and has captured `cache` (what else it names are its own parameters). `r`: the type of the result. -/
def detailLazy (ms : Bool) (f r : Caps) (deps : List Caps) : Caps := bound ms (closure true [optional r]) (tuple ms (f :: deps))

/-- `unwrap_value(f)` (lazy.h:35-44) -/
def unwrapValue (ms : Bool) (f : Caps) : Caps := recursive (overload ms [bound ms (closure false []) (tuple ms [f]), closure false []])

/-- What a lazy function is made of: values, functions with results, lazy functions with results (the arguments of lazy.h:96). -/
inductive Tree where
  | value (v : Caps)
  | function (f r : Caps)
  | lazy (f r : Caps) (deps : List Tree)

mutual
/-- What `ensure_lazy` makes of a dependency (lazy.h:78-90); an int that is 0 for plain functions. -/
def dep (ms : Bool) (int : Caps) : Tree → Caps
  | .value v => lazyValue ms v boolConstant
  | .function f r => detailLazy ms (wrapped ms f) r [lazyValue ms int boolConstant]
  | .lazy f r ds => wrapped ms (unwrapValue ms (detailLazy ms (wrapped ms f) r (deps ms int ds)))
/-- ... of all of them (lazy.h:99). -/
def deps (ms : Bool) (int : Caps) : List Tree → List Caps
  | [] => []
  | d :: ds => dep ms int d :: deps ms int ds
end

/-- `pigro::lazy(f, deps...)` (lazy.h:96-103). A lazy function as a dependency of another is used as it is (lazy.h:78-80). -/
def lazy (ms : Bool) (int f r : Caps) (ds : List Tree) : Caps := dep ms int (.lazy f r ds)

/-- An int (lazy.h:85). -/
def int : Caps := ⟨false, true, true, true, true, true⟩

/-! ### Which constructor -/

/-- The constructors of `compressed_tuple<Ts...>` that take one argument: the implicit ones and the template (compressed_tuple.h:56-60). -/
inductive Ctor where
  | copy
  | move
  | template
  deriving DecidableEq

open Cxx (Cat)

/-- Whether the constructor can be called with an expression of the type of the tuple itself. `n`: the number of elements (language rule, for compressed_tuple.h:51-61). -/
def Ctor.viable (n : Nat) (c : Bool) (cat : Cat) : Ctor → Bool
  | .copy => true
  | .move => decide (cat = .xv) && !c
  | .template => decide (n = 1)

/-- How well: an rvalue is better bound to an rvalue reference; no const is added; no template. Lexicographic (language rule, for compressed_tuple.h:51-61). -/
def Ctor.rank (c : Bool) (cat : Cat) : Ctor → Nat
  | .copy => (if cat = .xv then 4 else 0) + (if c then 0 else 2)
  | .move => 0
  | .template => 1

/-- The constructor that initialises a tuple from another one, by direct initialisation or, if not `direct`, copy initialisation, which does not consider the template: it is explicit (language rule, for compressed_tuple.h:51-61). -/
def chosen (direct : Bool) (n : Nat) (c : Bool) (cat : Cat) : Ctor :=
  let cs := ([.copy, .move, .template] : List Ctor).filter fun k => k.viable n c cat && (direct || k != .template)
  cs.foldl (fun best k => if k.rank c cat < best.rank c cat then k else best) .copy

end Pigro.Spc
