import Verif.Model.LazyLayout
/-!
# Object layout of the first documented design

The closure of docs/walkthrough/dependencies.md:37-50 (again comparisons.md:25-38) for the same trees as in `Model/LazyLayout.lean`. Lambdas are laid out like classes with
their captures as members, in the order of first use (unspecified by the standard).
-/
namespace Pigro.Lay
variable {U : Type} [DecidableEq U]

/-- `std::tuple<...>`: elements as members. (Classes with members have no identity in a layout, so the name does not matter.) (dependencies.md:39) -/
def stdTupleOf (ds : List (Lt U)) : Lt U := classLayout (.user .nil) [] ds

/-- `std::optional<...>` of a class or scalar: the value and a flag (dependencies.md:38-39). -/
def stdOptionalOf (d : Lt U) : Lt U := classLayout (.user .nil) [] [d, scalar 1]

/-- The value a dependency evaluates to: its type. `regular_void` is an empty class (dependencies.md:38-39). -/
def LTree.valueLayout (Γ : Types U) : LTree U → Lt U
  | .value v => Γ.layout v
  | .function _ res => Γ.layout res
  | .lazy _ (some res) _ => Γ.layout res
  | .lazy _ none _ => classLayout (.user .nil) [] []

/-- `dependencies_cache` (dependencies.md:39). -/
def argsCache (Γ : Types U) (deps : List (LTree U)) : Lt U := stdOptionalOf (stdTupleOf (deps.map (LTree.valueLayout Γ)))

mutual
/-- The type of a dependency: `[=] { return value; }` for a value (syntactic_sugar.md:19-21, without the `lazy` around it), the function itself, and the closure of
dependencies.md:41 with `dependencies`, `cache`, `dependencies_cache` and `f`. `dc`: the layout of `dependencies_cache`. -/
def firstLayout (Γ : Types U) (dc : List (LTree U) → Lt U) : LTree U → Lt U
  | .value v => classLayout (.user .nil) [] [Γ.layout v]
  | .function f _ => Γ.layout f
  | .lazy f res deps => classLayout (.user .nil) [] (firstLayouts Γ dc deps ++ [Γ.cache res, dc deps, Γ.layout f])
/-- Several (the pack `dependencies` of dependencies.md:37). -/
def firstLayouts (Γ : Types U) (dc : List (LTree U) → Lt U) : List (LTree U) → List (Lt U)
  | [] => []
  | t :: ts => firstLayout Γ dc t :: firstLayouts Γ dc ts
end

end Pigro.Lay
