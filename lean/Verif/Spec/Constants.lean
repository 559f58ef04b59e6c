import Verif.Spec.Refactor
/-!
# Specification: a constant written into the function
-/
namespace Pigro.Rfc
variable {D W E S : Type}

/-- `x` inserted at place `n` (or at the end). -/
def ins {α : Type} (n : Nat) (x : α) : List α → List α
  | [] => [x]
  | y :: ys => match n with
    | 0 => x :: y :: ys
    | n + 1 => y :: ins n x ys

/-- `h` is `f` with argument number `n` being `v`: on `N` further arguments it does the same, in all respects. (A `std::tuple` that is the only argument is spread, also by `f`.) -/
def Specializes (h f : UFn D W E S) (n : Nat) (v : Val D) (N : Nat) : Prop :=
  h.ret = f.ret ∧ h.st = f.st ∧ ∀ s xs w, xs.length = N → h.run s (Rem.spread xs) w = f.run s (Rem.spread (ins n v xs)) w

/-- For any `f` there is such a function if there are other arguments, of which not a single one may be spread: `[=](auto... xs) { return f(xs..., v, ...); }` -/
def given (k : Nat) (f : UFn D W E S) (n : Nat) (v : Val D) : UFn D W E S :=
  ⟨⟨k, f.ret, fun s vs w => f.run s (ins n v vs) w⟩, f.st⟩

/-- All events, but calls of the functions with the given numbers. -/
def apartFrom (ks : List Nat) : Ev D S → Bool
  | .call _ id _ _ _ => !ks.contains id
  | .cmp _ _ => true

/-- Constants do not dangle: either results are values, or what they refer to is not a parameter (lazy.h:70). -/
def ConstantsLive (g : Glue) : Prop := g.resultByRef = false ∨ g.valueParamByValue = false

instance (g : Glue) : Decidable (ConstantsLive g) := by unfold ConstantsLive; infer_instance

end Pigro.Rfc
