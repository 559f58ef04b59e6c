import Verif.Model.LazyLayout
import Verif.Spec.Layout
/-!
# Specification of the size of lazy functions
-/
namespace Pigro.Lay
variable {U N : Type}

/-- Size and alignment of something that takes space. -/
abbrev Foot := Option (Nat × Nat)

/-- What a type takes: nothing, if it is an empty class. -/
def Layout.foot (d : Layout N) : Foot := if d.empty then none else some (d.size, d.align)

/-- What a struct of such members takes. -/
def structOf (ms : List Foot) : Foot :=
  let ms := ms.filterMap id
  if ms = [] then none else some (structSize ms, strictest ms)

/-- `sizeof` -/
def Foot.size : Foot → Nat
  | none => 1
  | some x => x.1

/-- Size and alignment of the flag in `std::optional<regular_void>`. -/
def cacheFoot (opt : U → Foot) : Option U → Foot
  | some u => opt u
  | none => some (1, 1)

mutual
/-- What a lazy function takes: a cache; the captures of the function; and what the dependencies take. A value takes its own size. `dummy`: what else
there is in a plain function that is made a lazy one. -/
def LTree.foot (ty opt : U → Foot) (dummy : Foot) : LTree U → Foot
  | .value v => ty v
  | .function f res => structOf [opt res, structOf [ty f, dummy]]
  | .lazy f res deps => structOf [cacheFoot opt res, structOf (ty f :: LTree.foots ty opt dummy deps)]
/-- Several. -/
def LTree.foots (ty opt : U → Foot) (dummy : Foot) : List (LTree U) → List Foot
  | [] => []
  | t :: ts => LTree.foot ty opt dummy t :: LTree.foots ty opt dummy ts
end

/-- The user's types are classes or scalars containing nothing of this library. -/
structure Types.Plain (Γ : Types U) : Prop where
  layout : ∀ u, (Γ.layout u).empty = true ∨ (Γ.layout u).Proper
  optional : ∀ u, (Γ.optional u).Proper
  names : ∀ u, ∀ e ∈ (Γ.layout u).empties ++ (Γ.optional u).empties, ∃ v, e.1 = .user (.user v)

end Pigro.Lay
