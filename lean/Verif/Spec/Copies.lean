import Verif.Model.Memory
/-!
# Specification: which objects were copied and moved
-/
namespace Pigro.Cxx
variable {B V L : Type}

/-- Between `m` and `m'` exactly these constructors were called, in this order: `(true, a)` a move from the object at `a`, `(false, a)` a copy of it. -/
def Made (m m' : Mem V L) (l : List (Bool × Nat)) : Prop :=
  ∃ new, m'.inits = m.inits ++ new ∧ new.map (fun i => (i.move, i.src)) = l

/-- A new object initialised from `e`: a non-const rvalue is moved from, anything else is copied. -/
def Expr.made (e : Expr B) : Bool × Nat := (decide (e.cat = .xv) && !e.c, e.addr)

/-- The rvalues among some expressions. -/
def rvalues (es : List (Expr B)) : List (Expr B) := es.filter fun e => decide (e.cat = .xv)

/-- The objects copied. -/
def copied (l : List (Bool × Nat)) : List Nat := (l.filter fun p => !p.1).map Prod.snd

/-- The objects moved from. -/
def movedFrom (l : List (Bool × Nat)) : List Nat := (l.filter fun p => p.1).map Prod.snd

end Pigro.Cxx
