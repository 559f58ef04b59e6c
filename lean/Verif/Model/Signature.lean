import Verif.Model.Bind
/-!
# bind_tuple.h: which calls are accepted, and their types

`Model/Bind.lean` says what a call does; here is what the compiler makes of it: whether the call takes part in overload resolution (the trailing return
types), whether its body compiles once it is selected, and its type.

The names in the trailing return type of a lambda are those of the surrounding function (C++20 before P2036; otherwise `FWD(f)` at bind_tuple.h:15 would be
the captured `std::tuple`, and no call were accepted).
-/
namespace Pigro.Cxx
variable {B V L : Type}

/-- Which calls a callable type accepts: the type of the callee expression and of the argument expressions (always references: `X &` for an lvalue, `X &&`
for an rvalue); the type of the result. `none`: not invocable (the `f` of bind_tuple.h:52, :56). -/
abbrev Sig (B : Type) := Ty B → List (Ty B) → Option (Ty B)

/-- What the compiler makes of a call: not viable (another overload may be chosen, a constraint may fail), selected but its body does not compile, or accepted
with a type (language rule, for bind_tuple.h:26, :42). -/
inductive Static (B : Type) where
  | notViable
  | hardError
  | ok (t : Ty B)
  deriving DecidableEq

/-- The same object as an lvalue (bind_tuple.h:27, :43). -/
def Ty.asLref (t : Ty B) : Ty B := { t with ref := .lref }

/-- A decayed copy, as an rvalue (standard library, for bind_tuple.h:46). -/
def Ty.decayRref (t : Ty B) : Ty B := ⟨t.base, false, false, .rref⟩

/-- The same as const (language rule, for bind_tuple.h:25, :41). -/
def Ty.const (t : Ty B) : Ty B := { t with c := true }

/-- `return e;` for `e` of type `r'` (none: `e` is not well-formed) in a selected function declared to return `r` (language rule, for bind_tuple.h:26, :30, :42, :46). -/
def returnAs (conv : Ty B → Ty B → Bool) (r : Ty B) : Option (Ty B) → Static B
  | none => .hardError
  | some r' => if conv r' r then .ok r else .hardError

/-- `bind_back(f, back_args...)(front_args...)` (bind_tuple.h:13-18). `f` and `back`: the types of the expressions passed to `bind_back`. Declared type (:15):
`std::invoke(FWD(f), FWD(front_args)..., FWD(back_args)...)`; body (:16): `std::invoke(access(f), FWD(front_args)..., access(back_args)...)`, captures being
lvalues. `conv`: which types convert implicitly to which. -/
def bindBackStatic (conv : Ty B → Ty B → Bool) (sig : Sig B) (f : Ty B) (back front : List (Ty B)) : Static B :=
  match sig f (front ++ back) with
  | none => .notViable
  | some r => returnAs conv r (sig f.asLref (front ++ back.map Ty.asLref))

/-- Call of an rvalue wrapper made by `std::bind_front(f, front...)`: as an rvalue; or, if this is not possible and the library lets const overloads take over
(`fallback`), as a const rvalue, then as a const lvalue (bind_tuple.h:42, :46). -/
def stdBindFrontStatic (fallback : Bool) (sig : Sig B) (f : Ty B) (front back : List (Ty B)) : Option (Ty B) :=
  let as := front.map Ty.decayRref
  match sig f.decayRref (as ++ back) with
  | some r => some r
  | none =>
    if fallback then
      match sig f.decayRref.const (as.map Ty.const ++ back) with
      | some r => some r
      | none => sig f.decayRref.const.asLref (as.map (fun a => a.const.asLref) ++ back)
    else none

/-- Type of an access as an argument (apply.h:10). -/
def Got.argType : Got B → Option (Ty B)
  | .glvalue e => some e.type
  | .prvalue b => some ⟨b, false, false, .rref⟩
  | _ => none

/-- Types of `get<idx>(t)...` for all indices (apply.h:9, :15), `t` being a (const) lvalue. -/
def getTypes [DecidableEq B] (els : List (Elem B)) (c : Bool) : Option (List (Ty B)) :=
  (List.range els.length).mapM fun i => (get els c .lv i).argType

/-- Type of `pigro::apply(bind_back(f, args...), t)` or `pigro::apply(std::bind_front(f, args...), t)` (bind_tuple.h:26, :30; :42, :46), for lvalues `f` and `t`;
`apply` (apply.h:9, :15) is declared as its body. -/
def applyStatic [DecidableEq B] (conv : Ty B → Ty B → Bool) (fallback : Bool) (sig : Sig B) (dir : Dir) (f : Ty B) (els : List (Elem B)) (c : Bool)
    (args : List (Ty B)) : Static B :=
  match getTypes els c with
  | none => .notViable
  | some ts =>
    match dir with
    | .front => bindBackStatic conv sig f args ts
    | .back =>
      match stdBindFrontStatic fallback sig f args ts with
      | none => .notViable
      | some r => .ok r

/-- The declared type of the same expression: in a trailing return type the body of `bind_back`'s lambda is not looked at (bind_tuple.h:26, apply.h:9, :15). -/
def applyDeclared [DecidableEq B] (fallback : Bool) (sig : Sig B) (dir : Dir) (f : Ty B) (els : List (Elem B)) (c : Bool) (args : List (Ty B)) :
    Option (Ty B) :=
  match getTypes els c with
  | none => none
  | some ts =>
    match dir with
    | .front => sig f (ts ++ args)
    | .back => stdBindFrontStatic fallback sig f args ts

/-- `auto &&x = g;`, `x` used as an expression (bind_tuple.h:27-28, :43-44). -/
def Got.localType (g : Got B) : Option (Ty B) := g.argType.map Ty.asLref

/-- A call of the generic operator of a (const) bound callable (bind_tuple.h:25-31, :41-47) with arguments of the given types. `f` and `t`: the expressions
passed to `bind_front_tuple` / `bind_back_tuple`, which the trailing return type refers to (by name, so as lvalues). -/
def Bound.static [DecidableEq B] (conv : Ty B → Ty B → Bool) (fallback : Bool) (sig : Sig B) (b : Bound B) (f t : Expr B) (c : Bool)
    (args : List (Ty B)) : Static B :=
  match applyDeclared fallback sig b.dir f.named.type b.els t.c args with
  | none => .notViable
  | some r =>
    let self := tupleExpr c .lv
    match (callIdx b.lams 0 2 self).localType, (callIdx b.lams 1 2 self).localType with
    | some f', some t' =>
      match applyStatic conv fallback sig b.dir f' b.els t'.c args with
      | .ok r' => returnAs conv r (some r')
      | _ => .hardError
    | _, _ => .hardError

end Pigro.Cxx
