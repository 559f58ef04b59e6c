import Verif.Model.Convert
import Verif.Spec.Refactor
/-!
# Specification: functions that convert their results themselves
-/
namespace Pigro.Cvt
variable {D W E S : Type}

/-- `f`, with the conversion in it. -/
def converting (Cv : Nat → Conversion D) (u : UFn D W E S) : UFn D W E S :=
  ⟨⟨u.id, u.ret, fun s vs w => ((u.run s vs w).1.map fun v => if u.ret = .val then (Cv u.id).conv v else v, (u.run s vs w).2)⟩, u.st⟩

/-- The program with such functions. Plain functions as dependencies convert nothing. -/
def Op.converting (Cv : Nat → Conversion D) : Op D W E S → Op D W E S
  | .mk f deps => .mk (Cvt.converting Cv f) deps
  | op => op

/-- Comparing before the conversion is comparing after it. -/
def Compatible [CxxData D] (C : Conversion D) : Prop := ∀ a b, C.ne a b = Val.ne a (C.conv b)

/-- All calls, no comparisons. -/
def calls : Ev D S → Bool
  | .call _ _ _ _ _ => true
  | .cmp _ _ => false

end Pigro.Cvt
