import Verif.Model.UserLazy
/-!
# Sharing a lazy function by reference

Dependencies are taken by value (`auto... deps`, lazy.h:96), so `lazy(f, x)` refers to a copy of `x`. To share `x` itself, a program passes a function that calls it,
`[&] { return x(); }` (a plain function, lazy.h:82-86), or `std::ref(x)` (callable with `nullptr` and without arguments like `x`, hence passed on as it is, lazy.h:78-80).
The shared variables are part of the world of the program that shares them.
-/
namespace Pigro
variable {D W E S : Type} [CxxData D]

/-- Operations on existing variables, and anything done to the world (client code calling lazy.h:96-103). -/
def Op.uses : Op D W E S → Prop
  | .call _ => True
  | .poll _ => True
  | .poke _ => True
  | .mk .. => False
  | .copy _ => False

/-- Such an operation (client code calling lazy.h:96-103). -/
abbrev Use (D W E S : Type) := { op : Op D W E S // op.uses }

/-- A call (client code calling lazy.h:96-103). -/
def Use.call (i : Nat) : Use D W E S := ⟨.call i, trivial⟩

/-- Some change of the world (client code calling lazy.h:96-103). -/
def Use.poke (h : W → W) : Use D W E S := ⟨.poke h, trivial⟩

/-- Variables as some use leaves them that were `s0` initially (client code calling lazy.h:96-103). -/
def Shared (g : Glue) (s0 : State D W E S) : Type := { s : State D W E S // ∃ ops : List (Op D W E S), (∀ op ∈ ops, op.uses) ∧ s = (run g s0 ops).2 }

theorem run_snoc (g : Glue) (s : State D W E S) (ops : List (Op D W E S)) (op : Op D W E S) : (run g s (ops ++ [op])).2 = (step g (run g s ops).2 op).2 := by
  induction ops generalizing s with
  | nil => rfl
  | cons a ops ih => exact ih _

/-- Use a shared variable (client code calling lazy.h:96-103). -/
def Shared.use {g : Glue} {s0 : State D W E S} (s : Shared g s0) (op : Op D W E S) (h : op.uses) : Obs D E × Shared g s0 :=
  ((step g s.1 op).1, ⟨(step g s.1 op).2, by
    obtain ⟨ops, ho, hs⟩ := s.2
    refine ⟨ops ++ [op], ?_, by rw [run_snoc, ← hs]⟩
    intro a ha
    rcases List.mem_append.1 ha with ha | ha
    · exact ho a ha
    · rw [List.mem_singleton.1 ha]; exact h⟩)

/-- A function that uses none of the shared variables (the `f` of lazy.h:96). -/
def UFn.beside {g : Glue} {s0 : State D W E S} (u : UFn D W E S) : UFn D (Shared g s0) E S where
  id := u.id
  ret := u.ret
  st := u.st
  run st args s := ((u.run st args s.1.env.w).1, (u.run st args s.1.env.w).2.1, (s.use (.poke fun _ => (u.run st args s.1.env.w).2.2) trivial).2)

/-- What a function gets from `return x();` where `x` returns a value. (Undefined behaviour is not propagated here; it does not arise where `byCall` is used in theorems.) (what lazy.h:84 gets) -/
def Obs.returned : Obs D E → Except E (Val D)
  | .ret (.ok (some v)) => .ok v
  | .ret (.thrown e) => .error e
  | _ => .ok .rvoid

/-- `[&] { return x_i(); }` for a shared variable that returns a value (the `dep` of lazy.h:82). -/
def byCall {g : Glue} {s0 : State D W E S} (st : S) (i : Nat) : UFn D (Shared g s0) E S where
  id := i
  ret := .val
  st := st
  run st _ s := ((s.use (.call i) trivial).1.returned, st, (s.use (.call i) trivial).2)

/-- What `std::ref(x)(nullptr)` returns, by `x(nullptr)` (what lazy.h:51 gets). -/
def Obs.referred : Obs D E → Except E (Val D × Bool)
  | .polled (.ok r) => .ok (r.value, r.isChanged)
  | .polled (.thrown e) => .error e
  | _ => .ok (.rvoid, false)

/-- `std::ref(x_i)` for a shared variable (the `dep` of lazy.h:78). -/
def byRef {g : Glue} {s0 : State D W E S} (st : S) (i : Nat) : LFn D (Shared g s0) E S where
  id := i
  st := st
  run st s := ((s.use (.poll i) trivial).1.referred, st, (s.use (.poll i) trivial).2)

/-- A dependency in a program with shared variables (client code calling lazy.h:96-103). -/
inductive ShArg (D W E S : Type) where
  | value (v : Val D)
  | function (u : UFn D W E S)
  /-- an own variable, copied -/
  | var (i : Nat)
  /-- `[&] { return x_i(); }` for the shared variable `x_i` -/
  | shared (i : Nat)

/-- Operations of a program with shared variables (client code calling lazy.h:96-103). -/
inductive ShOp (D W E S : Type) where
  | mk (f : UFn D W E S) (deps : List (ShArg D W E S))
  | copy (i : Nat)
  | call (i : Nat)
  | poll (i : Nat)
  /-- use of shared variables by whatever part of the program; changes of the world -/
  | elsewhere (op : Op D W E S) (h : op.uses)

/-- As an argument of `pigro::lazy`. `st`: what a function has as state that captures references only (the arguments of lazy.h:96). -/
def ShArg.arg (g : Glue) (s0 : State D W E S) (st : S) : ShArg D W E S → ArgRef D (Shared g s0) E S
  | .value v => .value v
  | .function u => .function u.beside
  | .var i => .var i
  | .shared i => .function (byCall st i)

/-- As an operation of a program whose world is the shared variables and their world (client code calling lazy.h:96-103). -/
def ShOp.op (g : Glue) (s0 : State D W E S) (st : S) : ShOp D W E S → Op D (Shared g s0) E S
  | .mk f deps => .mk f.beside (deps.map (ShArg.arg g s0 st))
  | .copy i => .copy i
  | .call i => .call i
  | .poll i => .poll i
  | .elsewhere op h => .poke fun s => (s.use op h).2

end Pigro
