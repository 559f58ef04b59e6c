import Verif.Model.LazyMake
/-!
# Specification: what making a lazy function copies
-/
namespace Pigro

mutual
/-- What the functions, constants and cached results of a lazy object weigh together. -/
def Obj.weigh {D W E S : Type} (wf : UFn D W E S → Nat) (wv : Val D → Nat) : Obj D W E S → Nat
  | .lazyValue v _ => wv v
  | .core f cache deps =>
    (match f with | .regularized u => wf u | .wrapDep u => wf u) + (match cache with | .opt (some v) => wv v | _ => 0) + Obj.weighs wf wv deps
  | .unwrapped inner => inner.weigh wf wv
  | .unregularized inner => inner.weigh wf wv
/-- Of several objects. -/
def Obj.weighs {D W E S : Type} (wf : UFn D W E S → Nat) (wv : Val D → Nat) : List (Obj D W E S) → Nat
  | [] => 0
  | o :: os => o.weigh wf wv + Obj.weighs wf wv os
end

namespace LM
open Cxx
variable {D W E S : Type}

/-- Same, for anything in memory. -/
def MV.weigh (wf : UFn D W E S → Nat) (wv : Val D → Nat) : MV D W E S → Nat
  | .obj o => o.weigh wf wv
  | .func (.regularized u) => wf u
  | .func (.wrapDep u) => wf u
  | .user u => wf u
  | .val v => wv v
  | .cache (.opt (some v)) => wv v
  | _ => 0

/-- The copy constructors called between `m` and `m'` copied objects that weigh `n` together. Moves are not counted. -/
def Copied (wf : UFn D W E S → Nat) (wv : Val D → Nat) (m m' : LMem D W E S) (n : Nat) : Prop :=
  ∃ new, m'.inits = m.inits ++ new ∧ ((new.filter fun i => !i.move).map fun i => (m'.get i.src).weigh wf wv).sum = n

/-- Passing `e` to a by-value parameter copies, unless `e` is a non-const rvalue. -/
def passed (wf : UFn D W E S → Nat) (wv : Val D → Nat) (m : LMem D W E S) (e : Expr LB) : Nat :=
  if e.cat = .xv ∧ e.c = false then 0 else (m.get e.addr).weigh wf wv

/-- What becomes of a dependency, once it is a parameter of `pigro::lazy`: a value is copied 8 times, and so is a function, which is given a constant `0` that is copied 7 times;
a lazy function is copied 6 times with all it contains. -/
def depCopies [CxxData D] (wf : UFn D W E S → Nat) (wv : Val D → Nat) : MV D W E S → Nat
  | .val v => 8 * wv v
  | .user u => 8 * wf u + 7 * wv (.data CxxData.zero)
  | .obj o => 6 * o.weigh wf wv
  | _ => 0

/-- The same for a dependency in a client program, values and functions being temporaries, lazy functions being variables, which are copied once more. -/
def argCopies [CxxData D] (wf : UFn D W E S → Nat) (wv : Val D → Nat) (s : MState D W E S) : ArgRef D W E S → Nat
  | .value v => 8 * wv v
  | .function u => 8 * wf u + 7 * wv (.data CxxData.zero)
  | .var i => match s.vars[i]? with
    | some a => 7 * (s.mem.get a).weigh wf wv
    | none => 0

/-- What a new lazy function weighs, from what the variables weigh. -/
def argWeight [CxxData D] (wf : UFn D W E S → Nat) (wv : Val D → Nat) (vars : List Nat) : ArgRef D W E S → Nat
  | .value v => wv v
  | .function u => wf u + wv (.data CxxData.zero)
  | .var i => vars.getD i 0

/-- What is copied once more. -/
def onceMore (wf : UFn D W E S → Nat) (wv : Val D → Nat) : ArgRef D W E S → Nat
  | .value v => wv v
  | .function u => wf u
  | .var _ => 0

/-- The functions `f, g, ...` and dependencies of a program that does nothing but make lazy functions; what they weigh, and what is copied altogether: whatever the new lazy function
weighs seven times, and once more the values and functions that are dependencies. -/
def totalCopies [CxxData D] (wf : UFn D W E S → Nat) (wv : Val D → Nat) : List Nat → List (UFn D W E S × List (ArgRef D W E S)) → Nat
  | _, [] => 0
  | vars, (f, args) :: rest =>
    let weight := wf f + (args.map (argWeight wf wv vars)).sum
    7 * weight + (args.map (onceMore wf wv)).sum + totalCopies wf wv (vars ++ [weight]) rest

/-- Every function that is a dependency returns something, and the lazy functions that are dependencies have been made before (`n` are there). -/
def Valid : Nat → List (UFn D W E S × List (ArgRef D W E S)) → Prop
  | _, [] => True
  | n, (_, args) :: rest => (∀ a ∈ args, match a with | .value _ => True | .function u => u.ret ≠ .void | .var i => i < n) ∧ Valid (n + 1) rest

/-- The program. -/
def makes (l : List (UFn D W E S × List (ArgRef D W E S))) : List (Op D W E S) := l.map fun p => .mk p.1 p.2

end LM
end Pigro
