import Verif.Model.History
/-!
# Specification: how many functions are reached from a variable of a client program

Computed from the program text, without trees or objects.
-/
namespace Pigro
variable {D W E S : Type}

/-- The plain functions and all functions reached from the dependencies, counted once for every path; from those of the variables. `none`: does not compile. -/
def reached (vars : List (Nat × Nat)) : List (ArgRef D W E S) → Option (Nat × Nat)
  | [] => some (0, 0)
  | .value _ :: as => reached vars as
  | .function u :: as => if u.ret = .void then none else (reached vars as).map fun n => (n.1 + 1, n.2 + 1)
  | .var i :: as => vars[i]?.bind fun v => (reached vars as).map fun n => (v.1 + n.1, v.2 + n.2)

/-- The same for every variable of a program: a lazy function reaches its own function, too. -/
def paths (vars : List (Nat × Nat)) : List (Op D W E S) → List (Nat × Nat)
  | [] => vars
  | .mk _ deps :: ops => paths (vars ++ ((reached vars deps).map fun n => (n.1, n.2 + 1)).toList) ops
  | .copy i :: ops => paths (vars ++ vars[i]?.toList) ops
  | _ :: ops => paths vars ops

end Pigro
