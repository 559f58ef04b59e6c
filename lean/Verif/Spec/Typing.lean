import Verif.Model.Typing
/-!
# Specification of type soundness
-/
namespace Pigro
variable {C D W E S : Type}

/-- User functions return what their signature says (guaranteed by the C++ type system for the functions themselves). -/
def FnCode.Respects (cls : D → C) (sig : FnSig C D W E S) (c : FnCode D W E S) : Prop :=
  ∀ ts r, sig c ts = some r → c.ret = r.kind ∧
    ∀ t, r = .val t → ∀ st args w v, Val.types cls args = ts → (c.run st args w).1 = .ok v → v.type cls = t

/-- The user functions occurring in an operation. -/
def Op.fns : Op D W E S → List (FnCode D W E S)
  | .mk f deps => f.toFnCode :: deps.filterMap fun
    | .function u => some u.toFnCode
    | _ => none
  | _ => []

/-- The event makes sense: a function (one of those satisfying `P`) is invoked with arguments of types it accepts; only values of the same type are
compared. -/
def Ev.Typed (P : FnCode D W E S → Prop) (cls : D → C) (sig : FnSig C D W E S) : Ev D S → Prop
  | .call _ id args _ _ => ∃ c, P c ∧ c.id = id ∧ sig c (Val.types cls args) ≠ none
  | .cmp a b => a.type cls = b.type cls

/-- The result of an operation makes sense; `Γ`: the types of the values of the variables. The operation compiles; a value has the type announced; there
is no value exactly if this type is `regular_void`. -/
def Obs.Typed (cls : D → C) (Γ : List (STy C)) : Op D W E S → Obs D E → Prop
  | .call i, .ret o => o ≠ .illFormed ∧
      (∀ v, o = .ok (some v) → Γ[i]? = some (v.type cls) ∧ v.type cls ≠ .rvoid) ∧ (o = .ok none → Γ[i]? = some .rvoid)
  | .poll i, .polled o => o ≠ .illFormed ∧ ∀ r, o = .ok r → Γ[i]? = some (r.value.type cls)
  | .mk _ _, .unit => True
  | .copy _, .unit => True
  | .poke _, .unit => True
  | _, _ => False

/-- The dependency, as written in the program, has values of type `t`: the value itself, what the plain function returns, those of the lazy function. -/
def ArgRef.Gives (cls : D → C) (sig : FnSig C D W E S) (Γ : List (STy C)) : ArgRef D W E S → STy C → Prop
  | .value v, t => v.type cls = t
  | .function u, t => sig u.toFnCode [] = some (.val t)
  | .var i, t => Γ[i]? = some t

/-- All dependencies have values of the given types. -/
inductive GivesAll (cls : D → C) (sig : FnSig C D W E S) (Γ : List (STy C)) : List (ArgRef D W E S) → List (STy C) → Prop
  | nil : GivesAll cls sig Γ [] []
  | cons {a : ArgRef D W E S} {t : STy C} {as : List (ArgRef D W E S)} {ts : List (STy C)} :
      a.Gives cls sig Γ t → GivesAll cls sig Γ as ts → GivesAll cls sig Γ (a :: as) (t :: ts)

/-- The type of the values of a lazy function whose function returns `r`. -/
def RTy.value : RTy C → STy C
  | .void => .rvoid
  | .val t => t

end Pigro
