import Verif.Model.Cxx
import Verif.Model.Overload
/-!
# recursive.h
-/
namespace Pigro.Cxx
variable {B : Type}

/-- The four call operators of `recursive` (recursive.h:15-18, 20-23, 25-28, 30-33). -/
inductive RecOp where
  | lref
  | rref
  | constLref
  | constRref
  deriving DecidableEq, Repr

/-- Whether the implicit object parameter binds to the object expression `e` (language rule, for recursive.h:15-33). -/
def RecOp.binds (e : Expr B) : RecOp → Bool
  | .lref => decide (e.cat = .lv) && !e.c && !e.v
  | .rref => decide (e.cat = .xv) && !e.c && !e.v
  | .constLref => !e.v
  | .constRref => decide (e.cat = .xv) && !e.v

/-- `*this` in each of them: an lvalue, const in the const ones (recursive.h:17, :22, :27, :32). -/
def RecOp.this (e : Expr B) : RecOp → Expr B
  | .lref => { e with c := false, cat := .lv }
  | .rref => { e with c := false, cat := .lv }
  | .constLref => { e with c := true, cat := .lv }
  | .constRref => { e with c := true, cat := .lv }

/-- `std::move(x)` (recursive.h:22, :32) -/
def Expr.move (e : Expr B) : Expr B := { e with cat := .xv }

/-- First operand of `std::invoke`: the stored function, `static_cast<F &>(*this)`, `static_cast<F &&>(*this)`,
`static_cast<const F &>(*this)`, `static_cast<const F &&>(*this)` (recursive.h:17, :22, :27, :32). -/
def RecOp.callee (e : Expr B) : RecOp → Expr B
  | .lref => { e with c := false, cat := .lv }
  | .rref => { e with c := false, cat := .xv }
  | .constLref => { e with c := true, cat := .lv }
  | .constRref => { e with c := true, cat := .xv }

/-- Second operand: `*this` or `std::move(*this)` (recursive.h:17, :22, :27, :32). -/
def RecOp.self (e : Expr B) : RecOp → Expr B
  | .lref => RecOp.this e .lref
  | .rref => (RecOp.this e .rref).move
  | .constLref => RecOp.this e .constLref
  | .constRref => (RecOp.this e .constRref).move

/-- Viable: the object parameter binds, and the trailing return type is well-formed (`acc`: whether the stored
function, as the given expression, can be invoked with the given self and the arguments of the call) (recursive.h:16, :21, :26, :31). -/
def RecOp.viable (acc : Expr B → Expr B → Bool) (e : Expr B) (op : RecOp) : Bool :=
  op.binds e && acc (op.callee e) (op.self e)

/-- Ranking of the implicit object parameters ([over.ics.rank]): for an rvalue, an rvalue reference is better than an
lvalue reference; otherwise the less cv-qualified reference is better (language rule, for recursive.h:15-33). -/
def RecOp.better (e : Expr B) : RecOp → RecOp → Bool
  | .lref, .constLref => true
  | .rref, .constRref => true
  | .rref, .constLref => decide (e.cat = .xv)
  | .constRref, .constLref => decide (e.cat = .xv)
  | _, _ => false

/-- A call of a `recursive` object: the callee and self expressions handed to `std::invoke`. `none`:
ill-formed (recursive.h:15-33). -/
def recursiveCall (acc : Expr B → Expr B → Bool) (e : Expr B) : Option (Expr B × Expr B) :=
  match Ovl.resolve (RecOp.viable acc e) (RecOp.better e) [.lref, .rref, .constLref, .constRref] with
  | .pick op => some (op.callee e, op.self e)
  | _ => none

end Pigro.Cxx

namespace Pigro.Rec
variable {A R S X : Type}

/-- A function body that may call its `self` parameter, read and write the state captured by the function object,
throw, and return (the `F` of recursive.h:10). -/
inductive Prog (A R S X : Type) where
  | ret (r : R)
  | throw (x : X)
  | self (a : A) (k : R → Prog A R S X)
  | get (k : S → Prog A R S X)
  | put (s : S) (k : Prog A R S X)

/-- A function object: how it takes `self` (`auto &self` / `auto &&self`, or `auto self`, a copy) and its body (the `F` of recursive.h:10). -/
structure Fn (A R S X : Type) where
  byValue : Bool
  body : A → Prog A R S X

/-- Run a body. `own` is the state in the called object, `copy` the state of the `self` parameter if that is a copy.
`call` is what calling a `recursive{f}` in a given state does (recursive.h:15-33); a self call is applied to the called
object itself or to the copy. `none`: out of stack. -/
def Prog.run (byValue : Bool) (call : S → A → Option (Except X R × S)) :
    Prog A R S X → S → S → Option (Except X R × S)
  | .ret r, own, _ => some (.ok r, own)
  | .throw x, own, _ => some (.error x, own)
  | .self a k, own, copy =>
    match call (if byValue then copy else own) a with
    | none => none
    | some (.error x, s) => some (.error x, if byValue then own else s)
    | some (.ok r, s) =>
      if byValue then (k r).run byValue call own s else (k r).run byValue call s copy
  | .get k, own, copy => (k own).run byValue call own copy
  | .put s k, _, copy => k.run byValue call s copy

/-- `recursive{f}(a)` with captured state `s` and room for `depth` nested calls: invokes `f` with the object itself as
`self` (recursive.h:15-33). -/
def call (f : Fn A R S X) : Nat → S → A → Option (Except X R × S)
  | 0, _, _ => none
  | depth + 1, s, a => (f.body a).run f.byValue (call f depth) s s

end Pigro.Rec
