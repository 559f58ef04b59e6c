import Verif.Model.History
/-!
# Specification: programs without value dependencies

docs/walkthrough/syntactic_sugar.md: a value as dependency is short for a lazy function that returns it.
-/
namespace Pigro
variable {D W E S : Type}

/-- The type of a value, as far as it matters. -/
def Val.retTy : Val D → RetTy
  | .rvoid => .rvoid
  | _ => .val

/-- `[=] { return dependency; }` (syntactic_sugar.md:20); all such lambdas get the number `k`. -/
def constant (k : Nat) (s : S) (v : Val D) : UFn D W E S :=
  ⟨⟨k, v.retTy, fun s _ w => (.ok v, s, w)⟩, s⟩

/-- What is written instead of a value: a lazy function of values. -/
abbrev Recipe (D W E S : Type) : Type := Val D → UFn D W E S × List (Val D)

/-- syntactic_sugar.md:19-21. -/
def lambdas (k : Nat) (s : S) : Recipe D W E S := fun v => (constant k s v, [])

/-- All functions used instead of values have the number `k`, and always return the value, without any effect but on their own state. -/
def Recipe.Yields (ρ : Recipe D W E S) (k : Nat) : Prop :=
  ∀ v, (ρ v).1.id = k ∧ (ρ v).1.ret = v.retTy ∧ (∀ vs, (ρ v).2 ≠ [.tup vs]) ∧ ∀ s w, ∃ s', (ρ v).1.run s (ρ v).2 w = (.ok v, s', w)

/-- The dependencies of one call of `lazy` (syntactic_sugar.md:15-25): statements making a lazy function for every value, the dependencies written with them, and
the number of variables then. `ren` tells the new place of old variables, `n` is the number of variables so far. -/
def desugarDeps (ρ : Recipe D W E S) (ren : List Nat) : Nat → List (ArgRef D W E S) → List (Op D W E S) × List (ArgRef D W E S) × Nat
  | n, [] => ([], [], n)
  | n, .value v :: as =>
    let r := desugarDeps ρ ren (n + 1) as
    (.mk (ρ v).1 ((ρ v).2.map .value) :: r.1, .var n :: r.2.1, r.2.2)
  | n, .function u :: as =>
    let r := desugarDeps ρ ren n as
    (r.1, .function u :: r.2.1, r.2.2)
  | n, .var i :: as =>
    let r := desugarDeps ρ ren n as
    (r.1, .var (ren.getD i 0) :: r.2.1, r.2.2)

/-- The program with every value dependency written out. Statements of the original program are marked. -/
def desugar (ρ : Recipe D W E S) : List Nat → Nat → List (Op D W E S) → List (Bool × Op D W E S)
  | _, _, [] => []
  | ren, n, .mk f deps :: l =>
    let r := desugarDeps ρ ren n deps
    r.1.map (false, ·) ++ (true, .mk f r.2.1) :: desugar ρ (ren ++ [r.2.2]) (r.2.2 + 1) l
  | ren, n, .copy i :: l => (true, .copy (ren.getD i 0)) :: desugar ρ (ren ++ [n]) (n + 1) l
  | ren, n, .call i :: l => (true, .call (ren.getD i 0)) :: desugar ρ ren n l
  | ren, n, .poll i :: l => (true, .poll (ren.getD i 0)) :: desugar ρ ren n l
  | ren, n, .poke h :: l => (true, .poke h) :: desugar ρ ren n l

/-- The marked elements. -/
def marked {α : Type} : List Bool → List α → List α
  | true :: ms, a :: l => a :: marked ms l
  | false :: ms, _ :: l => marked ms l
  | _, _ => []

/-- The log without the calls of the functions with number `k`. -/
def withoutConstants (k : Nat) (l : List (Ev D S)) : List (Ev D S) :=
  l.filter fun e => match e with
    | .call .fn id _ _ _ => id != k
    | _ => true

/-- The functions a program wraps. -/
def wrappedFns : List (Op D W E S) → List (UFn D W E S)
  | [] => []
  | .mk f _ :: l => f :: wrappedFns l
  | _ :: l => wrappedFns l

/-- Where the code may use copies: either nothing that a call changes is lost, or the caches always are. -/
def Glue.AllOrNothing (g : Glue) : Prop :=
  g.bindFrontCopies = true ∨ (g.bindFrontCopies = false ∧ g.coreParamsByValue = false ∧ g.unwrapParamByValue = false ∧ g.facadeParamByValue = false)

/-- Results of values and of lazy functions are both references into something that is gone, or both are values. -/
def Glue.EquallyLive (g : Glue) : Prop :=
  g.resultByRef = true → g.valueParamByValue = true ∧ (g.bindFrontCopies || g.unwrapParamByValue || g.facadeParamByValue) = true

end Pigro
