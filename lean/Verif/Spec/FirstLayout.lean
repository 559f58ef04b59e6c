import Verif.Spec.LazyLayout
/-!
# Specification: types that need no padding between them
-/
namespace Pigro.Lay
variable {U N : Type}

/-- Nothing, or of alignment `a` (and a size that is a multiple of it). -/
def Foot.Aligned (a : Nat) (m : Foot) : Prop := ∀ x, m = some x → x.2 = a ∧ a ∣ x.1

/-- All types of the user, and `std::optional` of them, have the same alignment, unless empty. -/
def Types.Aligned (Γ : Types U) (a : Nat) : Prop := ∀ u, 0 < (Γ.layout u).align ∧ (Γ.layout u).foot.Aligned a ∧ (Γ.optional u).foot.Aligned a

mutual
/-- No function of the tree returns nothing. -/
def LTree.noVoid : LTree U → Prop
  | .value _ => True
  | .function .. => True
  | .lazy _ res deps => res ≠ none ∧ LTree.allNoVoid deps
/-- Several. -/
def LTree.allNoVoid : List (LTree U) → Prop
  | [] => True
  | t :: ts => t.noVoid ∧ LTree.allNoVoid ts
end

mutual
/-- Bytes of the caches of the dependencies of all lazy functions of the tree, where `size` says how many those of one take. -/
def LTree.argsCaches (size : List (LTree U) → Nat) : LTree U → Nat
  | .value _ => 0
  | .function .. => 0
  | .lazy _ _ deps => size deps + LTree.allArgsCaches size deps
/-- Several. -/
def LTree.allArgsCaches (size : List (LTree U) → Nat) : List (LTree U) → Nat
  | [] => 0
  | t :: ts => t.argsCaches size + LTree.allArgsCaches size ts
end

/-- `sizeof` of what a dependency evaluates to, `size` saying that of the user's types. (An object of an empty class is not smaller than 1.) -/
def LTree.valueSize (size : U → Nat) : LTree U → Nat
  | .value v => size v
  | .function _ res => size res
  | .lazy _ res _ => match res with
    | some res => size res
    | none => 1

end Pigro.Lay
