import Verif.Model.Bind
/-!
# Specification: what an object holds, apart from addresses
-/
namespace Pigro.Cxx
variable {B V L : Type}

/-- What an element is: of empty type; a reference to an object; an object with a value. -/
inductive View (B V : Type) where
  | empty (b : B)
  | ref (ty : Ty B) (addr : Nat)
  | obj (ty : Ty B) (v : V)

/-- What an element is in memory `m`. -/
def Elem.view (m : Mem V L) : Elem B → View B V
  | .empty b => .empty b
  | .stored ty a => if ty.ref = .lref then .ref ty a else .obj ty (m.get a)

/-- The bound callable, its tuple and the elements of it. -/
def Bound.parts (b : Bound B) : List (Elem B) := b.f :: b.t :: b.els

/-- The objects held by value exist, are new (from address `n` on), and different from each other. -/
def Held (n : Nat) (m : Mem V L) (els : List (Elem B)) : Prop :=
  (∀ (i : Nat) ty a, els[i]? = some (.stored ty a) → ty.ref ≠ .lref → n ≤ a ∧ a < m.next ∧ m.alive a = true) ∧
  ∀ (i j : Nat) ty ty' a, els[i]? = some (.stored ty a) → els[j]? = some (.stored ty' a) → ty.ref ≠ .lref → ty'.ref ≠ .lref → i = j

/-- The memories agree on everything there was before address `n`, and on the world. -/
structure Agree (n : Nat) (m m' : Mem V L) : Prop where
  get : ∀ a < n, m'.get a = m.get a
  alive : ∀ a < n, m'.alive a = m.alive a
  world : m'.world = m.world

/-- The number of objects that exist. -/
def Mem.living (m : Mem V L) : Nat := ((List.range m.next).filter m.alive).length

end Pigro.Cxx
