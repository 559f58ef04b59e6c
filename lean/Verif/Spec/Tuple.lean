import Verif.Model.CompressedTuple
/-!
# Specification of compressed tuples
-/
namespace Pigro.Cxx
variable {B V L : Type} [DecidableEq B]

/-! ### Specification: a machine with variables

The specification knows source variables (by address) and, for each element that is not a reference, a variable of its own (by
position); an lvalue reference element is another name for its source variable. -/

/-- Uses of a tuple and of the objects it was made from. `c`, `cat`: how the tuple is named. -/
inductive Op (V : Type) where
  | writeSrc (a : Nat) (x : V)
  | readSrc (a : Nat)
  | writeElem (c : Bool) (cat : Cat) (i : Nat) (x : V)
  | readElem (c : Bool) (cat : Cat) (i : Nat)

/-- Observations. -/
inductive Ans (V : Type) where
  | done
  | val (x : V)
  | rejected
  deriving DecidableEq

/-- One use of the real tuple: `get<i>(t)`, then read or assign. -/
def useReal (Λ : Lang B V) (els : List (Elem B)) (m : Mem V L) : Op V → Ans V × Mem V L
  | .writeSrc a x => (.done, m.write a x)
  | .readSrc a => (.val (m.get a), m)
  | .writeElem c cat i x =>
    match get els c cat i with
    | .glvalue e => if e.c then (.rejected, m) else (.done, m.write e.addr x)
    | .prvalue _ => (.done, m)
    | _ => (.rejected, m)
  | .readElem c cat i =>
    match get els c cat i with
    | .glvalue e => (.val (m.get e.addr), m)
    | .prvalue b => (.val (Λ.emptyVal b), m)
    | _ => (.rejected, m)

/-- All uses. -/
def runReal (Λ : Lang B V) (els : List (Elem B)) : Mem V L → List (Op V) → List (Ans V)
  | _, [] => []
  | m, op :: ops => (useReal Λ els m op).1 :: runReal Λ els (useReal Λ els m op).2 ops

/-- State of the specification. -/
structure Vars (V : Type) where
  src : Nat → V
  own : Nat → V

/-- One use, according to the specification, of a tuple with element types `ts` made from the objects `es`. An element of empty
type always has the only value of its type. Through a const tuple nothing can be assigned; neither can const elements; a
volatile element of a const tuple cannot be accessed at all (a restriction of the library). -/
def useSpec (Λ : Lang B V) (ts : List (Ty B)) (es : List (Expr B)) (s : Vars V) : Op V → Ans V × Vars V
  | .writeSrc a x => (.done, { s with src := fun b => if b = a then x else s.src b })
  | .readSrc a => (.val (s.src a), s)
  | .writeElem c _ i x =>
    match ts[i]?, es[i]? with
    | some t, some e =>
      if Λ.isEmpty t.base then (.done, s)
      else if c || t.c then (.rejected, s)
      else if t.ref = .lref then (.done, { s with src := fun b => if b = e.addr then x else s.src b })
      else (.done, { s with own := fun j => if j = i then x else s.own j })
    | _, _ => (.rejected, s)
  | .readElem c _ i =>
    match ts[i]?, es[i]? with
    | some t, some e =>
      if Λ.isEmpty t.base then (.val (Λ.emptyVal t.base), s)
      else if c && t.v then (.rejected, s)
      else if t.ref = .lref then (.val (s.src e.addr), s)
      else (.val (s.own i), s)
    | _, _ => (.rejected, s)

/-- All uses. -/
def runSpec (Λ : Lang B V) (ts : List (Ty B)) (es : List (Expr B)) : Vars V → List (Op V) → List (Ans V)
  | _, [] => []
  | s, op :: ops => (useSpec Λ ts es s op).1 :: runSpec Λ ts es (useSpec Λ ts es s op).2 ops

/-- The source variables mentioned exist at construction. -/
def Op.ok (next : Nat) : Op V → Prop
  | .writeSrc a _ => a < next
  | .readSrc a => a < next
  | _ => True

end Pigro.Cxx
