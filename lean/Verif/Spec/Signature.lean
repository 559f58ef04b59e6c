import Verif.Model.Signature
/-!
# Specification of the calls a bound callable accepts
-/
namespace Pigro.Cxx
variable {B : Type}

/-- The type a bound value is passed with: a stored object as an lvalue (const if the tuple is), an object of empty type as a new rvalue. -/
def Elem.passTy (c : Bool) : Elem B → Ty B
  | .stored ty _ => ⟨ty.base, ty.c || c, ty.v, .lref⟩
  | .empty b => ⟨b, false, false, .rref⟩

/-- The type the stored callable is called with: an lvalue. -/
def Elem.calleeTy (c : Bool) : Elem B → Ty B
  | .stored ty _ => ⟨ty.base, ty.c || c, ty.v, .lref⟩
  | .empty b => ⟨b, false, false, .lref⟩

/-- A call that takes part in overload resolution exactly if `o` says so, with the type `o` gives, and that compiles. -/
def Friendly (o : Option (Ty B)) (s : Static B) : Prop :=
  match o with
  | none => s = .notViable
  | some r => s = .ok r

/-- No volatile objects. -/
def NoVolatile (f t : Expr B) (els : List (Elem B)) : Prop :=
  f.v = false ∧ t.v = false ∧ ∀ el ∈ els, ∀ ty a, el = .stored ty a → ty.v = false

end Pigro.Cxx
