import Verif.Model.Bind
import Verif.Model.Uncapture
/-!
# uncapture.h: objects in memory

`uncaptured(v...) >> f` step by step: every parameter, temporary and subobject that is initialised by a copy or move constructor of a type of the user, in memory, with a record of these
initialisations (`Mem.inits`). An object returned by value, or made in place of a by-value parameter, is not copied (C++17). `B` are types, `V` values of objects. Lifetimes of temporaries are not
followed.
-/
namespace Pigro.Unc.Mk
open Cxx
variable {B V L : Type}

/-- An object of class `Uncaptured<T>` (uncapture.h:12-25): its `T`, and where `value` is; for an empty `T` nothing is stored. -/
structure UObj (B : Type) where
  ty : B
  part : Option Nat

/-- A callable: an object of the user, or a `CompressedInvocable` with its bases `U` and `F` (uncapture.h:27-41). -/
inductive CObj (B : Type) where
  | fn (ty : B) (addr : Nat)
  | ci (tag : Nat) (u : UObj B) (f : CObj B)

/-- The object at an address as an operand (language rule, for uncapture.h:57, :68). -/
def operand (ty : B) (cat : Cat) (addr : Nat) : Expr B := ⟨ty, false, false, cat, addr⟩

/-- A copy (`cat = lv`) or move (`cat = xv`) of an `Uncaptured<T>`: of its member. (uncapture.h:12-25, implicit constructors) -/
def UObj.init (Λ : Lang B V) (cat : Cat) (u : UObj B) (m : Mem V L) : UObj B × Mem V L :=
  match u.part with
  | none => (u, m)
  | some a => (⟨u.ty, some m.next⟩, Λ.initFrom (operand u.ty cat a) m)

/-- A copy or move of a callable: of `U`, then `F` (uncapture.h:28-29, implicit constructors). -/
def CObj.init (Λ : Lang B V) (cat : Cat) : CObj B → Mem V L → CObj B × Mem V L
  | .fn ty a, m => (.fn ty m.next, Λ.initFrom (operand ty cat a) m)
  | .ci tag u f, m =>
    let u' := u.init Λ cat m
    let f' := f.init Λ cat u'.2
    (.ci tag u'.1 f'.1, f'.2)

/-- Copies or moves of several, left to right (language rule, for uncapture.h:81, :70). -/
def initAll (Λ : Lang B V) (cat : Cat) : List (UObj B) → Mem V L → List (UObj B) × Mem V L
  | [], m => ([], m)
  | u :: us, m =>
    let u' := u.init Λ cat m
    let us' := initAll Λ cat us u'.2
    (u'.1 :: us'.1, us'.2)

/-- `Uncaptured<T>{ e }` (uncapture.h:78, :82): aggregate initialisation of `value`, or, for empty `T`, of the parameter of the constructor (uncapture.h:22), which is not kept. -/
def make (Λ : Lang B V) (e : Expr B) (m : Mem V L) : UObj B × Mem V L :=
  (⟨e.base, if Λ.isEmpty e.base then none else some m.next⟩, Λ.initFrom e m)

/-- Several, left to right (uncapture.h:82). -/
def makeAll (Λ : Lang B V) : List (Expr B) → Mem V L → List (UObj B) × Mem V L
  | [], m => ([], m)
  | e :: es, m =>
    let u := make Λ e m
    let us := makeAll Λ es u.2
    (u.1 :: us.1, us.2)

/-- `Uncaptured<T, unique_tag>{ u.get_value() }` (uncapture.h:57): `get_value()` is an lvalue (uncapture.h:16), or, for empty `T`, the parameter of the constructor itself (uncapture.h:22, :24). -/
def UObj.retag (Λ : Lang B V) (u : UObj B) (m : Mem V L) : UObj B × Mem V L :=
  match u.part with
  | none => (⟨u.ty, none⟩, m.alloc (Λ.emptyVal u.ty))
  | some a => (⟨u.ty, some m.next⟩, Λ.initFrom (operand u.ty .lv a) m)

/-- `unique_tag_v<F>` (uncapture.h:43-52) -/
def CObj.uniqueTag : CObj B → Nat
  | .fn _ _ => 0
  | .ci tag _ _ => tag

/-- `operator>>(Uncaptured<T> u, F f)` (uncapture.h:54-58), the parameters being `u` and `f`. The first operand of the constructor `CompressedInvocable(U u, F f)` (uncapture.h:40) becomes the parameter, the
second is copied; then both bases are copied from the parameters. -/
def shift (Λ : Lang B V) (u : UObj B) (f : CObj B) (m : Mem V L) : CObj B × Mem V L :=
  let u1 := u.retag Λ m
  let f1 := f.init Λ .lv u1.2
  let u2 := u1.1.init Λ .lv f1.2
  let f2 := f1.1.init Λ .lv u2.2
  (.ci (f.uniqueTag + 1) u2.1 f2.1, f2.2)

/-- `(values >> ... >> f)` (uncapture.h:68): every `values` is an lvalue and copied into the parameter `u`, so is `f` for the innermost; a callable made by `>>` becomes the parameter of the next. Without values,
`f` is returned: moved. -/
def fold (Λ : Lang B V) : List (UObj B) → CObj B → Mem V L → CObj B × Mem V L
  | [], f, m => f.init Λ .xv m
  | [u], f, m =>
    let u' := u.init Λ .lv m
    let f' := f.init Λ .lv u'.2
    shift Λ u'.1 f'.1 f'.2
  | u :: us, f, m =>
    let u' := u.init Λ .lv m
    let f' := fold Λ us f u'.2
    shift Λ u'.1 f'.1 f'.2

/-- `operator>>(mytuple<T> values_, F f)` (uncapture.h:65-71), the parameters being `us` and `f`: `std::tuple{ f }` copies `f`; `std::tuple_cat` moves it and copies the values, `values_.data` being an lvalue;
`std::apply` moves all of them into the parameters of the lambda. -/
def shiftMany (Λ : Lang B V) (us : List (UObj B)) (f : CObj B) (m : Mem V L) : CObj B × Mem V L :=
  let f1 := f.init Λ .lv m
  let f2 := f1.1.init Λ .xv f1.2
  let us2 := initAll Λ .lv us f2.2
  let f3 := f2.1.init Λ .xv us2.2
  let us3 := initAll Λ .xv us2.1 f3.2
  fold Λ us3.1 f3.1 us3.2

/-- `uncaptured(auto value)` (uncapture.h:77-79): the parameter, and a copy of it. -/
def one (Λ : Lang B V) (e : Expr B) (m : Mem V L) : UObj B × Mem V L :=
  let p := decayCopy Λ e m
  make Λ p.1.named p.2

/-- `uncaptured(auto... values)` (uncapture.h:81-83): the parameters, copies of them, which are temporaries, and the elements of the `std::tuple`, moved from those. -/
def many (Λ : Lang B V) (es : List (Expr B)) (m : Mem V L) : List (UObj B) × Mem V L :=
  let ps := decayAll Λ es m
  let us := makeAll Λ (ps.1.map Expr.named) ps.2
  initAll Λ .xv us.1 us.2

/-- The parameter `F f` of `operator>>`: copied from an lvalue, moved from an xvalue; a prvalue (`none`) becomes the parameter (uncapture.h:55). -/
def param (Λ : Lang B V) (how : Option Cat) (f : CObj B) (m : Mem V L) : CObj B × Mem V L :=
  match how with
  | none => (f, m)
  | some cat => f.init Λ cat m

/-- `uncaptured(es...) >> f`. For one value the first overload of `uncaptured` is chosen, as it is more specialised (uncapture.h:54-71, :77-83). -/
def uncapture (Λ : Lang B V) (es : List (Expr B)) (how : Option Cat) (f : CObj B) (m : Mem V L) : CObj B × Mem V L :=
  match es with
  | [e] =>
    let u := one Λ e m
    let f' := param Λ how f u.2
    shift Λ u.1 f'.1 f'.2
  | es =>
    let us := many Λ es m
    let f' := param Λ how f us.2
    shiftMany Λ us.1 f'.1 f'.2

/-- A call of a callable, const (`c`) or not (uncapture.h:32-38): the value, or for an empty type a new object (empty_object.h), is passed on behind the arguments, which are forwarded. `code` is the code of the callable of
the user. -/
def CObj.call {R : Type} (Λ : Lang B V) (code : Cxx.Code B V L R) (c : Bool) : CObj B → List (Expr B) → Mem V L → R × Mem V L
  | .fn ty a, args, m => code ⟨ty, c, false, .lv, a⟩ args m
  | .ci _ u f, args, m =>
    match u.part with
    | some a => f.call Λ code c (args ++ [⟨u.ty, c, false, .lv, a⟩]) m
    | none =>
      let r := f.call Λ code c (args ++ [operand u.ty .xv m.next]) (m.alloc (Λ.emptyVal u.ty))
      (r.1, r.2.kill m.next)

end Pigro.Unc.Mk
