import Verif.Model.Apply
/-!
# bind_tuple.h

A callable is given by its code, which gets the callee as an expression (its own state is the object there) and the arguments as
expressions, and may read and change memory and world. Whether the callable accepts the arguments, and the trailing return types, are not
considered here (see `Model/Signature.lean`): it does, and a result is passed on as it is.
-/
namespace Pigro.Cxx
variable {B V L R : Type}

/-- `FWD_CAPTURE(x)...` for a pack, left to right (bind_tuple.h:14, fwd_capture.h:24). -/
def captureAll (Λ : Lang B V) : List (Expr B) → Mem V L → List (Elem B) × Mem V L
  | [], m => ([], m)
  | e :: es, m =>
    let x := fwdCapture Λ e m
    let r := captureAll Λ es x.2
    (x.1 :: r.1, r.2)

/-- `access(x)` for a capture `x` of a mutable lambda, i.e. an lvalue. (Captures are never `Elem.empty`.) (bind_tuple.h:16, fwd_capture.h:17-20) -/
def Elem.accessLv : Elem B → Expr B
  | .empty b => ⟨b, false, false, .lv, 0⟩
  | .stored ty addr => access ty addr false .lv

/-- The closure made by `bind_back` (bind_tuple.h:14): captures. -/
structure BackBinder (B : Type) where
  f : Elem B
  args : List (Elem B)

/-- `bind_back(f, back_args...)` (bind_tuple.h:13-14) -/
def bindBack (Λ : Lang B V) (f : Expr B) (backArgs : List (Expr B)) (m : Mem V L) : BackBinder B × Mem V L :=
  let x := fwdCapture Λ f m
  let r := captureAll Λ backArgs x.2
  (⟨x.1, r.1⟩, r.2)

/-- Call of the closure (bind_tuple.h:16): `std::invoke(access(f), FWD(front_args)..., access(back_args)...)`. The closure is a
non-static `mutable` lambda, so its captures are lvalues whatever the closure is. -/
def BackBinder.call (code : Code B V L R) (b : BackBinder B) (frontArgs : List (Expr B)) (m : Mem V L) : R × Mem V L :=
  code b.f.accessLv (frontArgs ++ b.args.map Elem.accessLv) m

/-- A decayed copy: a new object of the unqualified type. The expression is the member forwarded as an rvalue (standard library, for bind_tuple.h:46). -/
def decayCopy (Λ : Lang B V) (e : Expr B) (m : Mem V L) : Expr B × Mem V L :=
  (⟨e.base, false, false, .xv, m.next⟩, Λ.initFrom e m)

/-- Decayed copies of a pack, left to right (standard library, for bind_tuple.h:46). -/
def decayAll (Λ : Lang B V) : List (Expr B) → Mem V L → List (Expr B) × Mem V L
  | [], m => ([], m)
  | e :: es, m =>
    let x := decayCopy Λ e m
    let r := decayAll Λ es x.2
    (x.1 :: r.1, r.2)

/-- The wrapper made by `std::bind_front` (C++ standard library), used as an rvalue: its members forwarded as rvalues (bind_tuple.h:46). -/
structure FrontBinder (B : Type) where
  f : Expr B
  args : List (Expr B)

/-- `std::bind_front(f, args...)`: the callable and the arguments are decay-copied (bind_tuple.h:46). -/
def stdBindFront (Λ : Lang B V) (f : Expr B) (args : List (Expr B)) (m : Mem V L) : FrontBinder B × Mem V L :=
  let x := decayCopy Λ f m
  let r := decayAll Λ args x.2
  (⟨x.1, r.1⟩, r.2)

/-- Call of an rvalue wrapper: `std::invoke(std::move(f), std::move(args)..., rest...)` (called by apply.h:10 from bind_tuple.h:46). -/
def FrontBinder.call (code : Code B V L R) (b : FrontBinder B) (rest : List (Expr B)) (m : Mem V L) : R × Mem V L :=
  code b.f (b.args ++ rest) m

/-- `>>` puts the bound values to the front, `<<` to the back (bind_tuple.h:52-58). -/
inductive Dir where
  | front
  | back
  deriving DecidableEq

/-- What `bind_front_tuple` / `bind_back_tuple` return (bind_tuple.h:20-50): the elements for the callable and for the tuple; `els` are the
elements of the tuple object that the second element is or refers to. -/
structure Bound (B : Type) where
  dir : Dir
  f : Elem B
  t : Elem B
  els : List (Elem B)

/-- `bind_front_tuple(f, t)` (bind_tuple.h:20-34) and `bind_back_tuple(f, t)` (bind_tuple.h:36-50), for an expression `t` denoting a
`compressed_tuple` with elements `els`. `none`: ill-formed. -/
def bindTuple (Λ : Lang B V) (dir : Dir) (f t : Expr B) (els : List (Elem B)) (m : Mem V L) :
    Option (Bound B × Mem V L) :=
  let f' := compressedTupleElement Λ f m
  let t' := compressedTupleElement Λ t f'.2
  match t'.1 with
  | .empty b => some (⟨dir, f'.1, .empty b, els⟩, t'.2)
  | .stored ty addr =>
    match ty.ref with
    | .lref => some (⟨dir, f'.1, .stored ty addr, els⟩, t'.2)
    | _ =>
      match initTuple Λ t.c t.cat els t'.2 with
      | none => none
      | some (els', m') => some (⟨dir, f'.1, .stored ty addr, els'⟩, m')

/-- `operator>>(args, f)` (bind_tuple.h:52-54) -/
def shiftRight (Λ : Lang B V) (t : Expr B) (els : List (Elem B)) (f : Expr B) (m : Mem V L) :
    Option (Bound B × Mem V L) := bindTuple Λ .front f t els m

/-- `operator<<(args, f)` (bind_tuple.h:56-58) -/
def shiftLeft (Λ : Lang B V) (t : Expr B) (els : List (Elem B)) (f : Expr B) (m : Mem V L) :
    Option (Bound B × Mem V L) := bindTuple Λ .back f t els m

/-- The expressions `compressed_tuple{ v... } >> f` and `compressed_tuple{ v... } << f` (as used in lazy.h and regular_void.h): class template
argument deduction, construction of the tuple (a temporary of type `tb`), binding. `none`: ill-formed. -/
def makeBound [DecidableEq B] (Λ : Lang B V) (isCT : B → Bool) (tb : B) (dir : Dir) (vs : List (Expr B)) (f : Expr B)
    (m : Mem V L) : Option (Bound B × Mem V L) :=
  match ctad isCT vs with
  | none => none
  | some ts =>
    match construct Λ ts vs m with
    | none => none
    | some (els, m1) =>
      let t : Expr B := ⟨tb, false, false, .xv, m1.next⟩
      let m2 := m1.alloc (Λ.default tb)
      match dir with
      | .front => shiftRight Λ t els f m2
      | .back => shiftLeft Λ t els f m2

/-- The overload set of a bound callable (bind_tuple.h:22-32, :38-48). -/
def Bound.lams (b : Bound B) : List (Lam B) := Cxx.lams [b.f, b.t] ++ [.generic]

/-- `auto &&x = g;`: the name is an lvalue; a temporary lives as long as the reference (bind_tuple.h:27-28, :43-44). -/
def bindLocal (Λ : Lang B V) (g : Got B) (m : Mem V L) : Option (Expr B × Mem V L) :=
  (materialise Λ g m).map fun r => (r.1.named, r.2)

/-- Body of the generic lambda (bind_tuple.h:27-30, :43-46), `self` being a (const) reference to the bound callable. Local variables and
temporaries end their lifetime at the end. -/
def Bound.body [DecidableEq B] (Λ : Lang B V) (code : Code B V L R) (b : Bound B) (self : Expr Unit)
    (args : List (Expr B)) (m : Mem V L) : Option (R × Mem V L) :=
  match bindLocal Λ (callIdx b.lams 0 2 self.named) m with
  | none => none
  | some (f, m1) =>
    match bindLocal Λ (callIdx b.lams 1 2 self.named) m1 with
    | none => none
    | some (t, m2) =>
      let (r, m3) : Option (R × Mem V L) × Mem V L := match b.dir with
        | .front =>
          let x := bindBack Λ f args m2
          (apply Λ (x.1.call code) (.compressed b.els) t.c .lv x.2, x.2)
        | .back =>
          let x := stdBindFront Λ f args m2
          (apply Λ (x.1.call code) (.compressed b.els) t.c .lv x.2, x.2)
      r.map fun r => (r.1, r.2.killRange m.next m3.next)

/-- Result of calling a bound callable: the code was invoked; or one of the element lambdas was selected; or the call is ill-formed (of the objects of bind_tuple.h:21, :37). -/
inductive BRes (B V L R : Type) where
  | invoked (r : R) (m : Mem V L)
  | element (g : Got B)
  | illFormed

/-- The index, if the arguments are a lone `idx_t<I>`. `idxOf`: which types are `idx_t<I>` (bind_tuple.h:27-28, :43-44, utils.h:12-16). -/
def loneIndex (idxOf : B → Option Nat) : List (Expr B) → Option Nat
  | [e] => idxOf e.base
  | _ => none

/-- Whether some call operator of a (const) bound callable accepts the arguments (bind_tuple.h:22-32, :38-48). -/
def Bound.accepts [DecidableEq B] (b : Bound B) (index : Option Nat) (c : Bool) : Bool :=
  match pickLam b.lams index true c with
  | .pick _ => true
  | _ => false

/-- `b(args...)`, `b` being used as a (const) lvalue or xvalue. `idxOf`: which types are `idx_t<I>` (bind_tuple.h:22-32, :38-48). -/
def Bound.call [DecidableEq B] (Λ : Lang B V) (idxOf : B → Option Nat) (code : Code B V L R) (b : Bound B) (c : Bool)
    (cat : Cat) (args : List (Expr B)) (m : Mem V L) : BRes B V L R :=
  let index := loneIndex idxOf args
  let o := tupleExpr c cat
  match recursiveCall (fun callee _ => b.accepts index callee.c) o with
  | none => .illFormed
  | some (callee, self) =>
    match pickLam b.lams index true callee.c with
    | .pick .generic =>
      match b.body Λ code self args m with
      | some (r, m') => .invoked r m'
      | none => .illFormed
    | .pick _ =>
      match index with
      | some I => .element (callIdx b.lams I 2 o)
      | none => .illFormed
    | _ => .illFormed

/-- `auto b2 = b;` (implicit copy constructor) (of the objects of bind_tuple.h:21, :37) -/
def Bound.copy (Λ : Lang B V) (b : Bound B) (m : Mem V L) : Bound B × Mem V L :=
  let f' := initElems Λ true .lv [b.f] m
  let f := f'.1.headD b.f
  match b.t with
  | .empty x => (⟨b.dir, f, .empty x, b.els⟩, f'.2)
  | .stored ty addr =>
    match ty.ref with
    | .lref => (⟨b.dir, f, .stored ty addr, b.els⟩, f'.2)
    | _ =>
      let t' := initElems Λ true .lv [Elem.stored ty addr] f'.2
      let r := initElems Λ true .lv b.els t'.2
      (⟨b.dir, f, t'.1.headD b.t, r.1⟩, r.2)

end Pigro.Cxx
