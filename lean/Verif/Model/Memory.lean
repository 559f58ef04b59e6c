import Verif.Model.Cxx
/-!
# Objects in memory

Addresses are never reused; an object that has ended its lifetime is marked dead. `V` are the values objects hold, `L` is
everything else user code can read and change (the outside world, logs).
-/
namespace Pigro.Cxx

/-- A call of a copy or move constructor: the objects it reads from and makes (language rule, for compressed_tuple.h:18-61 and all that copies). -/
structure Init where
  move : Bool
  src : Nat
  dst : Nat
  deriving DecidableEq

/-- Memory and world; and a record of the copies and moves that were made, which no code of the headers looks at (language rule, for compressed_tuple.h:18-61 and all that copies). -/
structure Mem (V L : Type) where
  get : Nat → V
  alive : Nat → Bool
  next : Nat
  world : L
  inits : List Init

variable {B V L : Type}

/-- Assign to the object at an address (language rule, for compressed_tuple.h:18-61 and all that copies). -/
def Mem.write (m : Mem V L) (a : Nat) (x : V) : Mem V L :=
  { m with get := fun b => if b = a then x else m.get b }

/-- Create an object holding `x`; its address is `m.next` (language rule, for compressed_tuple.h:18-61 and all that copies). -/
def Mem.alloc (m : Mem V L) (x : V) : Mem V L :=
  { m with get := fun b => if b = m.next then x else m.get b
           alive := fun b => decide (b = m.next) || m.alive b
           next := m.next + 1 }

/-- End the lifetime of an object (language rule, for the temporaries of compressed_tuple.h:21). -/
def Mem.kill (m : Mem V L) (a : Nat) : Mem V L :=
  { m with alive := fun b => m.alive b && !decide (b = a) }

/-- End the lifetime of several objects (language rule, for the parameters of lazy.h:50). -/
def Mem.killAll (m : Mem V L) (as : List Nat) : Mem V L := as.foldl Mem.kill m

/-- End the lifetimes of all objects with addresses from `lo` to below `hi`: temporaries and local variables at the end of a call (language rule, for the locals of bind_tuple.h:27-28). -/
def Mem.killRange (m : Mem V L) (lo hi : Nat) : Mem V L :=
  { m with alive := fun a => m.alive a && !(decide (lo ≤ a) && decide (a < hi)) }

/-- Facts about types and values: which unqualified types are empty (`std::is_empty_v`), the value of an object of
empty type, the value left behind in an object that was moved from, and the value of `X{}` (concepts.h:23-24; language rule). -/
structure Lang (B V : Type) where
  isEmpty : B → Bool
  emptyVal : B → V
  moved : V → V
  default : B → V

/-- Initialise a new object from `e`: moves from a non-const rvalue, otherwise copies (language rule, for compressed_tuple.h:18-61 and all that copies). -/
def Lang.initFrom (Λ : Lang B V) (e : Expr B) (m : Mem V L) : Mem V L :=
  let x := m.get e.addr
  let m1 := m.alloc x
  match e.cat, e.c with
  | .xv, false => { m1.write e.addr (Λ.moved x) with inits := m.inits ++ [⟨true, e.addr, m.next⟩] }
  | _, _ => { m1 with inits := m.inits ++ [⟨false, e.addr, m.next⟩] }

/-- Code of a callable: called as the expression `callee` (its own state is the object there) with argument
expressions. The result type includes exceptions (the `f` of bind_tuple.h:52, :56). -/
abbrev Code (B V L R : Type) := Expr B → List (Expr B) → Mem V L → R × Mem V L

/-- `concepts::empty<T>` (concepts.h:23-24): `std::is_empty_v<std::remove_cvref_t<T>>` -/
def Lang.emptyTy (Λ : Lang B V) (t : Ty B) : Bool := Λ.isEmpty t.removeCvref.base

end Pigro.Cxx
