import Verif.Spec.Throwing
/-!
# Specification for comparing two designs of `lazy`

What a client can observe of a program: what its operations return, what is done to the world, and which functions are invoked when, with which arguments.
-/
namespace Pigro
variable {D W E S : Type}

/-- The user's `==` is an equivalence relation (it need not be identity). -/
structure EquivNe (D : Type) [CxxData D] : Prop where
  refl : ∀ a : D, CxxData.ne a a = false
  symm : ∀ a b : D, CxxData.ne a b = false → CxxData.ne b a = false
  trans : ∀ a b c : D, CxxData.ne a b = false → CxxData.ne b c = false → CxxData.ne a c = false

/-- The invocations of user functions, with everything recorded of them. -/
def invocations : List (Ev D S) → List (Kind × Nat × List (Val D) × S × S)
  | [] => []
  | .call k id args seen left :: evs => (k, id, args, seen, left) :: invocations evs
  | .cmp _ _ :: evs => invocations evs

/-- The operation ended with an exception. -/
def Obs.threw : Obs D E → Bool
  | .ret (.thrown _) => true
  | .polled (.thrown _) => true
  | _ => false

/-- The outputs up to the first exception, which is included. -/
def untilThrow : List (Obs D E) → List (Obs D E)
  | [] => []
  | o :: os => if o.threw then [o] else o :: untilThrow os

/-- The operation is `x(nullptr)`. -/
def Op.isPoll : Op D W E S → Bool
  | .poll _ => true
  | _ => false

/-- Number of plain functions of a tree that return something to compare. -/
def Tree.plainFunctions : Tree D W E S → Nat
  | .value _ => 0
  | .function c => if c.ret = .val then 1 else 0
  | .lazy _ deps => (deps.map Tree.plainFunctions).sum

/-- Number of dependencies of all lazy functions of a tree. -/
def Tree.dependencies : Tree D W E S → Nat
  | .value _ => 0
  | .function _ => 0
  | .lazy _ deps => deps.length + (deps.map Tree.dependencies).sum

end Pigro
