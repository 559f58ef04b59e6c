import Verif.Model.UncaptureMake
import Verif.Spec.Bind
/-!
# Specification: values and copies of `uncaptured(v...) >> f`
-/
namespace Pigro.Unc.Mk
open Cxx
variable {B V L R : Type}

/-- The copies made between `m` and `m'` weigh `copies`, the moved objects `moves`, where the object made by either weighs what `w` says of its value. -/
def Counted (w : V → Nat) (m m' : Mem V L) (copies moves : Nat) : Prop :=
  ∃ new, m'.inits = m.inits ++ new ∧ ((new.filter fun i => !i.move).map fun i => w (m'.get i.dst)).sum = copies ∧ ((new.filter fun i => i.move).map fun i => w (m'.get i.dst)).sum = moves

/-- The value an `Uncaptured<T>` stands for. -/
def UObj.view (Λ : Lang B V) (m : Mem V L) (u : UObj B) : Uncaptured B V :=
  match u.part with
  | none => ⟨u.ty, true, Λ.emptyVal u.ty⟩
  | some a => ⟨u.ty, false, m.get a⟩

/-- A callable as in Model/Uncapture.lean; `code` gives the code of callables of the user by their type, their value is their own state. -/
def CObj.view (Λ : Lang B V) (code : B → Unc.Code V R V) (m : Mem V L) : CObj B → Cal B V R V
  | .fn ty a => .fn (code ty) (m.get a)
  | .ci tag u f => .ci tag (u.view Λ m) (f.view Λ code m)

/-- The uncaptured value an argument becomes. -/
def argView (Λ : Lang B V) (m : Mem V L) (e : Expr B) : Uncaptured B V :=
  if Λ.isEmpty e.base then ⟨e.base, true, Λ.emptyVal e.base⟩ else ⟨e.base, false, m.get e.addr⟩

/-- What a callable weighs: the callable of the user and all values stored. -/
def weight (w : V → Nat) : Cal B V R V → Nat
  | .fn _ s => w s
  | .ci _ u f => (if u.isEmpty then 0 else w u.value) + weight w f

/-- The initialisation of a parameter from `e` copies. -/
def copies (e : Expr B) : Bool := !(decide (e.cat = .xv) && !e.c)

/-- Copies of the arguments, from the `i`-th on: into the parameter, if it is not moved; for an empty type one more; for any other five more and two for each value before it. -/
def valueCopies (Λ : Lang B V) (w : V → Nat) (m : Mem V L) : Nat → List (Expr B) → Nat
  | _, [] => 0
  | i, e :: es => (if copies e then w (m.get e.addr) else 0) + (if Λ.isEmpty e.base then 1 else 5 + 2 * i) * w (m.get e.addr) + valueCopies Λ w m (i + 1) es

/-- Moves of the arguments: into the parameter, if it is moved; and two more, unless it is of empty type. -/
def valueMoves (Λ : Lang B V) (w : V → Nat) (m : Mem V L) : List (Expr B) → Nat
  | [] => 0
  | e :: es => (if copies e then 0 else w (m.get e.addr)) + (if Λ.isEmpty e.base then 0 else 2) * w (m.get e.addr) + valueMoves Λ w m es

/-- Copies and moves of `f` into the parameter of `operator>>`. -/
def paramCopies (how : Option Cat) : Nat := if how = some .lv then 1 else 0
def paramMoves (how : Option Cat) : Nat := if how = some .xv then 1 else 0

/-- Where the objects are that an `Uncaptured<T>` consists of. -/
def UObj.addrs (u : UObj B) : List Nat := u.part.toList

/-- Where the objects are that a callable consists of. -/
def CObj.addrs : CObj B → List Nat
  | .fn _ a => [a]
  | .ci _ u f => u.addrs ++ f.addrs

/-- Types and values of the objects denoted. -/
def denoted (m : Mem V L) (es : List (Expr B)) : List (B × V) := es.map fun e => (e.base, m.get e.addr)

/-- Types and values of what a callable has stored, outermost first. -/
def stored : Cal B V R V → List (B × V)
  | .fn _ _ => []
  | .ci _ u f => (u.ty, u.value) :: stored f

/-- The state of the callable of the user. -/
def ownState : Cal B V R V → Option V
  | .fn _ s => some s
  | .ci _ _ f => ownState f

/-- Arguments and callable exist, and no object is moved from that is used once more. -/
structure Proper (es : List (Expr B)) (how : Option Cat) (f : CObj B) (m : Mem V L) : Prop where
  lt : ∀ e ∈ es, e.addr < m.next
  apart : Apart es
  flt : ∀ a ∈ f.addrs, a < m.next
  nodup : how = some .xv → f.addrs.Nodup
  disjoint : ∀ e ∈ es, Moves e e.addr → e.addr ∉ f.addrs

/-- What is moved from: arguments, and `f`. -/
def Gives (es : List (Expr B)) (how : Option Cat) (f : CObj B) (a : Nat) : Prop := (∃ e ∈ es, Moves e a) ∨ how = some .xv ∧ a ∈ f.addrs

end Pigro.Unc.Mk
