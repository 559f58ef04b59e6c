import Verif.Model.Bind
import Verif.Spec.Bind
/-!
# Specification of repeated calls of a bound callable
-/
namespace Pigro.Cxx
variable {B V L R : Type} [DecidableEq B]

/-- User code that only looks at values: from its own state, the values of the arguments and the world to the result, its new own state, the
new values of the arguments (by position) and the new world. -/
abbrev PureFn (V L R : Type) := V → List V → L → R × V × (Nat → V) × L

/-- Assign to the objects the arguments denote, unless they are const. -/
def assignAll : List (Expr B) → (Nat → V) → Nat → Mem V L → Mem V L
  | [], _, _, m => m
  | e :: es, g, k, m => assignAll es g (k + 1) (if e.c then m else m.write e.addr (g k))

/-- Such code acting on memory. -/
def PureFn.code (pf : PureFn V L R) : Code B V L R := fun callee args m =>
  let r := pf (m.get callee.addr) (args.map fun e => m.get e.addr) m.world
  let m1 := if callee.c then m else m.write callee.addr r.2.1
  (r.1, { assignAll args r.2.2.1 0 m1 with world := r.2.2.2 })

/-- Temporaries holding the given values. -/
def temporaries : List (B × V) → Mem V L → List (Expr B) × Mem V L
  | [], m => ([], m)
  | (b, x) :: xs, m =>
    let r := temporaries xs (m.alloc x)
    (⟨b, false, false, .xv, m.next⟩ :: r.1, r.2)

/-- `b(v...)` with new objects as arguments. -/
def Bound.callWith (Λ : Lang B V) (idxOf : B → Option Nat) (code : Code B V L R) (b : Bound B) (cat : Cat)
    (vals : List (B × V)) (m : Mem V L) : BRes B V L R :=
  let a := temporaries vals m
  match b.call Λ idxOf code false cat a.1 a.2 with
  | .invoked r m' => .invoked r (m'.killRange m.next a.2.next)
  | r => r

/-- Calls one after another: the results (until a call fails to be one). -/
def Bound.runCalls (Λ : Lang B V) (idxOf : B → Option Nat) (code : Code B V L R) (b : Bound B) :
    List (Cat × List (B × V)) → Mem V L → List (Option R)
  | [], _ => []
  | (cat, vals) :: calls, m =>
    match b.callWith Λ idxOf code cat vals m with
    | .invoked r m' => some r :: b.runCalls Λ idxOf code calls m'
    | _ => [none]

/-- The value after a call: only that of a non-const stored object can change. -/
def Elem.updated (c : Bool) (el : Elem B) (old new : V) : V :=
  match el with
  | .empty _ => old
  | .stored ty _ => if ty.c || c then old else new

/-- Values of the bound elements after a call, `k` being the position of the first one among the arguments. -/
def updateVals (c : Bool) : List (Elem B) → List V → (Nat → V) → Nat → List V
  | el :: els, v :: vs, g, k => el.updated c v (g k) :: updateVals c els vs g (k + 1)
  | _, vs, _, _ => vs

/-- What repeated calls of `f(t..., args...)` yield: own state `s`, bound values `vs` and world are handed on from call to call. -/
def runFront (pf : PureFn V L R) (b : Bound B) : List (Cat × List (B × V)) → V → List V → L → List (Option R)
  | [], _, _, _ => []
  | (_, vals) :: calls, s, vs, w =>
    let r := pf s (vs ++ vals.map (·.2)) w
    some r.1 :: runFront pf b calls (b.f.updated false s r.2.1) (updateVals (b.tupleConst false) b.els vs r.2.2.1 0) r.2.2.2

/-- What repeated calls of `f(args..., t...)` yield if only the bound values and the world are handed on, while `f` always starts from the same
own state. -/
def runBack (pf : PureFn V L R) (b : Bound B) : List (Cat × List (B × V)) → V → List V → L → List (Option R)
  | [], _, _, _ => []
  | (_, vals) :: calls, s, vs, w =>
    let r := pf s (vals.map (·.2) ++ vs) w
    some r.1 :: runBack pf b calls s (updateVals (b.tupleConst false) b.els vs r.2.2.1 vals.length) r.2.2.2

/-- An element holds the value `v`. -/
def Elem.holds (Λ : Lang B V) (m : Mem V L) (el : Elem B) (v : V) : Prop :=
  match el with
  | .empty b => v = Λ.emptyVal b
  | .stored _ addr => m.get addr = v

/-- Whether the element is or refers to an object (of non-empty type). -/
def Elem.hasState : Elem B → Bool
  | .empty _ => false
  | .stored .. => true

/-- The unqualified type of an element. -/
def Elem.base : Elem B → B
  | .empty b => b
  | .stored ty _ => ty.base

/-- The object an element is or refers to. -/
def Elem.object : Elem B → Option Nat
  | .empty _ => none
  | .stored _ addr => some addr

/-- The objects a bound callable is made of or refers to are different and exist. -/
def Bound.Separate (b : Bound B) (next : Nat) : Prop :=
  ((b.f :: b.els).filterMap Elem.object).Nodup ∧ ∀ a ∈ (b.f :: b.els).filterMap Elem.object, a < next

end Pigro.Cxx
