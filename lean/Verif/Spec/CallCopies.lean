import Verif.Model.LazyMake
import Verif.Spec.Tree
/-!
# Specification: how many functions and values of the user are copied by a call
-/
namespace Pigro

mutual
/-- The functions and the constants a lazy object contains, a function counted `cf` times, a constant `cv` times. The cached result is not counted. -/
def Obj.content {D W E S : Type} (cf cv : Nat) : Obj D W E S → Nat
  | .lazyValue _ _ => cv
  | .core _ _ deps => cf + Obj.contents cf cv deps
  | .unwrapped inner => inner.content cf cv
  | .unregularized inner => inner.content cf cv
/-- Of several objects. -/
def Obj.contents {D W E S : Type} (cf cv : Nat) : List (Obj D W E S) → Nat
  | [] => 0
  | o :: os => o.content cf cv + Obj.contents cf cv os
end

/-- What a call of a lazy function is expected to copy or move: `d` is the number of lazy functions around `t`. Every function and every constant four times for each lazy function it is
in, and once more; a function used as a dependency twice more, and with it a constant, which is an argument besides; and all arguments of a lazy function once. -/
def Tree.handled {D W E S : Type} (cf cv : Nat) : Nat → Tree D W E S → Nat
  | d, .value _ => (4 * d + 1) * cv
  | d, .function _ => (4 * d + 2) * cf + (4 * d + 4) * cv
  | d, .lazy _ deps => (4 * (d + 1) + 1) * cf + deps.length * cv + (deps.map fun t => t.handled cf cv (d + 1)).sum

/-- No lazy function has one dependency only (whose value could be a tuple, which would be unpacked). -/
inductive Tree.NoSingle {D W E S : Type} : Tree D W E S → Prop
  | value (v : Val D) : NoSingle (.value v)
  | function (c : FnCode D W E S) : NoSingle (.function c)
  | lazy (c : FnCode D W E S) (deps : List (Tree D W E S)) : deps.length ≠ 1 → (∀ t ∈ deps, t.NoSingle) → NoSingle (.lazy c deps)

namespace LM
open Cxx

/-- The functions and constants in a memory cell, arguments and parameters included. -/
def MV.content {D W E S : Type} (cf cv : Nat) : MV D W E S → Nat
  | .obj o => o.content cf cv
  | .func _ => cf
  | .user _ => cf
  | .val _ => cv
  | _ => 0

/-- The objects initialised by copy and move constructors between `m` and `m'` contain `n`, a function counted `cf` times and a value `cv` times. -/
def Handled {D W E S : Type} (cf cv : Nat) (m m' : LMem D W E S) (n : Nat) : Prop :=
  ∃ new, m'.inits = m.inits ++ new ∧ (new.map fun i => (m'.get i.dst).content cf cv).sum = n

end LM
end Pigro
