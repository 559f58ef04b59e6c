/-!
# The part of C++ the headers are written in: cv-ref qualified types, expressions, std::forward

`B` are the unqualified object types. Functions, arrays and `void` are not modelled.
-/
namespace Pigro.Cxx

/-- Reference kind of a type (language rule, for forward_like.h:18-19). -/
inductive Ref where
  | none
  | lref
  | rref
  deriving DecidableEq, Repr

/-- A type: unqualified type, const, volatile and reference kind. For a reference type `c` and `v` are the
qualification of the type referred to (language rule, for forward_like.h:11-32). -/
structure Ty (B : Type) where
  base : B
  c : Bool
  v : Bool
  ref : Ref
  deriving DecidableEq, Repr

variable {B : Type}

/-- `std::remove_reference_t` (forward_like.h:15-16) -/
def Ty.removeReference (t : Ty B) : Ty B := { t with ref := .none }

/-- `std::remove_cv_t`: top-level qualifiers only, so no effect on references (forward_like.h:15, utils.h:20, :25). -/
def Ty.removeCv (t : Ty B) : Ty B :=
  match t.ref with
  | .none => { t with c := false, v := false }
  | _ => t

/-- `std::remove_cvref_t` (compressed_tuple.h:21, :64, concepts.h:24) -/
def Ty.removeCvref (t : Ty B) : Ty B := t.removeReference.removeCv

/-- `std::add_const_t`: no effect on references (forward_like.h:26). -/
def Ty.addConst (t : Ty B) : Ty B :=
  match t.ref with
  | .none => { t with c := true }
  | _ => t

/-- `std::add_volatile_t`: no effect on references (forward_like.h:27). -/
def Ty.addVolatile (t : Ty B) : Ty B :=
  match t.ref with
  | .none => { t with v := true }
  | _ => t

/-- `std::add_lvalue_reference_t`, and `T &` for a type parameter `T` (reference collapsing) (forward_like.h:24, utils.h:19-20). -/
def Ty.addLref (t : Ty B) : Ty B := { t with ref := .lref }

/-- `std::add_rvalue_reference_t`, and `T &&` for a type parameter `T` (reference collapsing) (forward_like.h:25, utils.h:24-25). -/
def Ty.addRref (t : Ty B) : Ty B :=
  match t.ref with
  | .lref => t
  | _ => { t with ref := .rref }

/-- `std::is_const_v`: of the type itself; a reference is never const (forward_like.h:20). -/
def Ty.isConst (t : Ty B) : Bool :=
  match t.ref with
  | .none => t.c
  | _ => false

/-- `std::is_volatile_v` (forward_like.h:21) -/
def Ty.isVolatile (t : Ty B) : Bool :=
  match t.ref with
  | .none => t.v
  | _ => false

/-- `std::is_lvalue_reference_v` (forward_like.h:19) -/
def Ty.isLref (t : Ty B) : Bool := decide (t.ref = .lref)

/-- `std::is_rvalue_reference_v` (forward_like.h:18) -/
def Ty.isRref (t : Ty B) : Bool := decide (t.ref = .rref)

/-- Value category of a glvalue: lvalue or xvalue. A prvalue used as an operand is materialised, i.e. an
xvalue denoting a new object (language rule, for forward_like.h:36-42 and all that forwards). -/
inductive Cat where
  | lv
  | xv
  deriving DecidableEq, Repr

/-- A glvalue: the object it denotes and the type and category it has as an expression (language rule, for forward_like.h:36-42 and all that forwards). -/
structure Expr (B : Type) where
  base : B
  c : Bool
  v : Bool
  cat : Cat
  addr : Nat
  deriving DecidableEq, Repr

/-- `decltype((e))` (language rule, for compressed_tuple.h:84) -/
def Expr.type (e : Expr B) : Ty B :=
  ⟨e.base, e.c, e.v, match e.cat with | .lv => .lref | .xv => .rref⟩

/-- The name of a variable or parameter used as an expression: an lvalue (language rule, for forward_like.h:41). -/
def Expr.named (e : Expr B) : Expr B := { e with cat := .lv }

/-- Deduction of `T` from a forwarding reference parameter `T &&`: `X &` for an lvalue, `X` for an
rvalue (language rule, for forward_like.h:37, fwd_capture.h:13). -/
def deduceFwd (e : Expr B) : Ty B :=
  ⟨e.base, e.c, e.v, match e.cat with | .lv => .lref | .xv => .none⟩

/-- `decltype(x)` for a parameter `x` declared `auto &&x` and initialised with `e` (language rule, for bind_tuple.h:13, utils.h:41). -/
def declTypeFwd (e : Expr B) : Ty B := (deduceFwd e).addRref

/-- The expression of reference type `U` denoting the object at `addr`: calling a function that returns
`U`, or a cast to `U`. (`U` without reference is used for `U &&` below only.) (language rule, for forward_like.h:41) -/
def Expr.ofRef (u : Ty B) (addr : Nat) : Expr B :=
  ⟨u.base, u.c, u.v, match u.ref with | .lref => .lv | _ => .xv, addr⟩

/-- `std::forward<U>(e)`: two overloads taking `std::remove_reference_t<U> &` and `&&`, the second with a
`static_assert` against turning an rvalue into an lvalue; both return `U &&`. `none`: ill-formed.
A reference to the same type with fewer qualifiers does not bind. (A const lvalue reference would bind to an
rvalue, but then the second overload is the better match.) (forward_like.h:41) -/
def stdForward [DecidableEq B] (u : Ty B) (e : Expr B) : Option (Expr B) :=
  if e.base = u.base ∧ (e.c → u.c) ∧ (e.v → u.v) ∧ (e.cat = .xv → u.ref ≠ .lref) then
    some (Expr.ofRef u.addRref e.addr)
  else none

end Pigro.Cxx
