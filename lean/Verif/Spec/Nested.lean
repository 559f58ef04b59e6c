import Verif.Spec.LazyLayout
import Verif.Spec.MsState
/-!
# Specification: lazy functions are laid out like nested structs

`struct { cache; struct { f; dependency; dependency; ... }; }`, where a dependency is a value, or again such a struct. Members of empty types are left out.
-/
namespace Pigro.Lay
open Ms (Piece structAt)
variable {U : Type}

/-- What is at which offset in a member of a struct, at an offset. -/
def shifted (parts : List (Nat × Piece U)) : Option Nat → List (Nat × Piece U)
  | none => []
  | some off => parts.map fun r => (off + r.1, r.2)

/-- What is at which offset in a struct, given what the members take and what is in them. -/
def nest (ms : List (Foot × List (Nat × Piece U))) : List (Nat × Piece U) := ms.zipIdx.flatMap fun x => shifted x.1.2 (structAt (ms.map (·.1)) x.2)

/-- An object of a type of the user; nothing, if it is empty. -/
def own (foot : Foot) (p : Piece U) : List (Nat × Piece U) := if foot.isSome then [(0, p)] else []

mutual
/-- What is at which offset in a lazy function. `ty`, `opt`, `dummy` as for `LTree.foot`. -/
def LTree.places (ty opt : U → Foot) (dummy : Foot) : LTree U → List (Nat × Piece U)
  | .value v => own (ty v) (.value v)
  | .function f res => nest [(opt res, own (opt res) (.cache (some res))),
      (structOf [ty f, dummy], nest [(ty f, own (ty f) (.function f)), (dummy, own dummy .dummy)])]
  | .lazy f res deps => nest [(cacheFoot opt res, own (cacheFoot opt res) (.cache res)),
      (structOf (ty f :: LTree.foots ty opt dummy deps), nest ((ty f, own (ty f) (.function f)) :: LTree.placesList ty opt dummy deps))]
/-- Several, each with what it takes. -/
def LTree.placesList (ty opt : U → Foot) (dummy : Foot) : List (LTree U) → List (Foot × List (Nat × Piece U))
  | [] => []
  | t :: ts => (t.foot ty opt dummy, LTree.places ty opt dummy t) :: LTree.placesList ty opt dummy ts
end

end Pigro.Lay
