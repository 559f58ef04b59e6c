import Verif.Model.Bind
/-!
# Specification of the binders: what the bound callable gets to see
-/
namespace Pigro.Cxx
variable {B V L : Type}

/-- `m'` is `m` with new objects, and possibly different values at addresses in `S`. -/
structure Grows (S : Nat → Prop) (m m' : Mem V L) : Prop where
  next : m.next ≤ m'.next
  world : m'.world = m.world
  frame : ∀ a < m.next, ¬ S a → m'.get a = m.get a
  aliveOld : ∀ a < m.next, m'.alive a = m.alive a
  aliveNew : ∀ a, m.next ≤ a → a < m'.next → m'.alive a = true

/-- Initialising from this expression moves from the object at `a`. -/
def Moves (e : Expr B) (a : Nat) : Prop := e.addr = a ∧ e.cat = .xv ∧ e.c = false

/-- No two of the rvalues denote the same object. -/
def XvApart (es : List (Expr B)) : Prop :=
  es.Pairwise fun e e' => e.cat = .xv → e'.cat = .xv → e.addr ≠ e'.addr

/-- No rvalue denotes the same object as another of the expressions. -/
def Apart (es : List (Expr B)) : Prop :=
  es.Pairwise fun e e' => (e.cat = .xv ∨ e'.cat = .xv) → e.addr ≠ e'.addr

/-- A captured argument `e`, accessed: an lvalue is passed as it is; for an rvalue an lvalue denoting a new object with its value. -/
def Captured (m m' : Mem V L) (e e' : Expr B) : Prop :=
  match e.cat with
  | .lv => e' = e
  | .xv => e'.base = e.base ∧ e'.c = e.c ∧ e'.v = e.v ∧ e'.cat = .lv ∧ m.next ≤ e'.addr ∧ e'.addr < m'.next ∧
      m'.get e'.addr = m.get e.addr

/-- A decayed copy of `e`, passed on as an rvalue. -/
def Decayed (m m' : Mem V L) (e e' : Expr B) : Prop :=
  e'.base = e.base ∧ e'.c = false ∧ e'.v = false ∧ e'.cat = .xv ∧ m.next ≤ e'.addr ∧ e'.addr < m'.next ∧
    m'.get e'.addr = m.get e.addr

/-- How an element of a compressed tuple is seen through `get`. -/
def SeenElem (Λ : Lang B V) (m m' : Mem V L) (c : Bool) (cat : Cat) (el : Elem B) (e : Expr B) : Prop :=
  match el with
  | .stored ty addr => e.base = ty.base ∧ e.c = (ty.c || c) ∧ e.v = ty.v ∧ e.addr = addr ∧
      (c = false → e.cat = if ty.ref = .lref then .lv else cat) ∧ (c = true → e.cat = cat)
  | .empty b => e.base = b ∧ e.c = false ∧ e.v = false ∧ e.cat = .xv ∧ m.next ≤ e.addr ∧ e.addr < m'.next ∧
      m'.get e.addr = Λ.emptyVal b

/-- The element can be accessed through a const tuple. -/
def Elem.constOk (c : Bool) : Elem B → Prop
  | .stored ty _ => c = true → ty.v = false
  | .empty _ => True

/-- How `>>` passes a bound element to the callable: the stored object itself, as an lvalue; for an empty type a new object. `c`: the tuple is
const as seen from the call. -/
def PassedElem (Λ : Lang B V) (m m' : Mem V L) (c : Bool) (el : Elem B) (e : Expr B) : Prop :=
  match el with
  | .stored ty addr => e = ⟨ty.base, ty.c || c, ty.v, .lv, addr⟩
  | .empty b => e.base = b ∧ e.c = false ∧ e.v = false ∧ e.cat = .xv ∧ m.next ≤ e.addr ∧ e.addr < m'.next ∧
      m'.get e.addr = Λ.emptyVal b

/-- The callee in `>>`: the stored callable itself, as an lvalue; for an empty type a new object. -/
def CalleeRef (Λ : Lang B V) (m m' : Mem V L) (c : Bool) (el : Elem B) (e : Expr B) : Prop :=
  match el with
  | .stored ty addr => e = ⟨ty.base, ty.c || c, ty.v, .lv, addr⟩
  | .empty b => e.base = b ∧ e.c = false ∧ e.v = false ∧ e.cat = .lv ∧ m.next ≤ e.addr ∧ e.addr < m'.next ∧
      m'.get e.addr = Λ.emptyVal b

/-- The callee in `<<`: a new object holding the value of the stored callable, as an rvalue. -/
def CalleeCopy (Λ : Lang B V) (m m' : Mem V L) (el : Elem B) (e : Expr B) : Prop :=
  e.c = false ∧ e.v = false ∧ e.cat = .xv ∧ m.next ≤ e.addr ∧ e.addr < m'.next ∧
  match el with
  | .stored ty addr => e.base = ty.base ∧ m'.get e.addr = m.get addr
  | .empty b => e.base = b ∧ m'.get e.addr = Λ.emptyVal b

/-- Whether the tuple is const as seen from a call of the bound callable as (non-)const. -/
def Bound.tupleConst (b : Bound B) (c : Bool) : Bool :=
  match b.t with
  | .empty _ => false
  | .stored ty _ => ty.c || c

/-- A tuple object of empty type has only elements of empty type. -/
def Bound.WF (b : Bound B) : Prop := ∀ x, b.t = .empty x → ∀ el ∈ b.els, ∃ y, el = .empty y

/-- No volatile objects are accessed through const ones. -/
def Bound.ConstOk (b : Bound B) (c : Bool) : Prop :=
  b.f.constOk c ∧ b.t.constOk c ∧ ∀ el ∈ b.els, el.constOk (b.tupleConst c)

/-- Everything the bound callable holds or refers to exists. -/
def Bound.InRange (b : Bound B) (next : Nat) : Prop :=
  ∀ ty addr, b.f = .stored ty addr → addr < next

/-- Also the bound values. -/
def Bound.InRangeAll (b : Bound B) (next : Nat) : Prop :=
  ∀ el ∈ b.f :: b.els, ∀ ty addr, el = .stored ty addr → addr < next

/-- Those of the objects that are new (from address `next` on) are different. -/
def NewApart (next : Nat) (es : List (Expr B)) : Prop :=
  es.Pairwise fun x y => next ≤ x.addr → next ≤ y.addr → x.addr ≠ y.addr

/-- `P` holds for the corresponding elements of two lists of the same length. -/
def Pairs {α β : Type} (P : α → β → Prop) (as : List α) (bs : List β) : Prop :=
  bs.length = as.length ∧ ∀ (i : Nat) (a : α), as[i]? = some a → ∃ b, bs[i]? = some b ∧ P a b

end Pigro.Cxx
