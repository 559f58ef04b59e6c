import Verif.Proofs.Remember
import Verif.Props.Demo
/-!
# C95: a lazy function is its function with a memory
-/
namespace Pigro.Rem
variable {D W E S : Type}

/-- The library, with hand-overs `g`, does what the specification says: the same answers, the same invocations with the same arguments in the same order, the same world. -/
def Agrees [CxxData D] (g : Glue) (w : W) (ops : List (Op D W E S)) : Prop :=
  (Pigro.run g (State.init w) ops).1.map answer = (run ([], ⟨w, []⟩) ops).1.map some ∧ view (Pigro.run g (State.init w) ops).2.env = (run ([], ⟨w, []⟩) ops).2.2

/-- **C95** (for glue that hands nothing over by copy). In every program, with arbitrary functions (with state, reading and changing anything, throwing), every lazy function behaves as its function with
a memory of its last result and of the last value of each dependency: it runs the function if there is no result yet or a dependency has another value than remembered, and returns the last result
otherwise. Missing: the pinned code hands over by copy (`C95_exact`); values that differ from themselves (`C95_nan`). -/
theorem C95_memory_partial [CxxData D] (hrefl : ReflNe D) (g : Glue) (hg : KeepsAll g) (w : W) (ops : List (Op D W E S)) : Agrees g w ops := by
  obtain ⟨h1, h2⟩ := run_same hrefl g hg ops ([], ⟨w, []⟩) (State.init w) ⟨by simp only [State.init, RelL], by simp, rfl⟩
  exact ⟨h1, h2.view.symm⟩

open Demo

/-- `lazy(sum, odd, tick)`: a dependency that throws in odd worlds, and one that counts its calls. Called in worlds 0, 1 (throws before `tick` runs), 2. -/
def faulty : List P := [.mk sum [.function odd, .function tick], .call 0, .poke (· + 1), .call 0, .poke (· + 1), .call 0, .call 0]

/-- The number in an answer. -/
def number : Answer Int Nat → Option Int
  | .ret (.ok (some (.data n))) => some n
  | .ret (.error e) => some (-e)
  | _ => none

example : Agrees Glue.retained 0 faulty ∧ (run ([], ⟨0, []⟩) faulty).1.map number = [none, some 0, none, some (-9), none, some 3, some 4] ∧
    (run ([], ⟨0, []⟩) faulty).2.2.ran.map (·.1) = [8, 10, 3, 8, 8, 10, 3, 8, 10, 3] :=
  ⟨C95_memory_partial reflNe _ ⟨⟨rfl, rfl, rfl, rfl⟩, rfl, rfl, rfl⟩ 0 faulty, by decide +kernel, by decide +kernel⟩

/-! ### It is exactly the glue that keeps everything -/

/-- Programs by which hand-overs by copy show. -/
def probes : List (List P) := [
  [.mk sum [.value (.data 1)], .call 0, .call 0],
  [.mk sum [.function rd], .mk sum [.var 0], .call 1, .call 1],
  [.mk tick [.function rd], .call 0, .poke (· + 1), .call 0],
  [.mk sum [.function tick], .call 0, .call 0],
  [.mk proc [], .call 0]]

/-- What is compared of a run of the library: numbers returned, and how many functions have run. -/
def shownL (g : Glue) (ops : List P) : List (Option (Option Int)) × Nat :=
  ((Pigro.run g (State.init 0) ops).1.map fun ob => (answer ob).map number, (ran (Pigro.run g (State.init 0) ops).2.env.log).length)

/-- ... and of the specification. -/
def shownS (ops : List P) : List (Option (Option Int)) × Nat :=
  ((run ([], ⟨0, []⟩) ops).1.map fun a => some (number a), (run ([], ⟨(0 : Int), []⟩) ops).2.2.ran.length)

theorem shown_of_agrees (g : Glue) (ops : List P) (h : Agrees g 0 ops) : shownL g ops = shownS ops := by
  obtain ⟨h1, h2⟩ := h
  have h3 : (Pigro.run g (State.init 0) ops).1.map (fun ob => (answer ob).map number) = (run ([], ⟨0, []⟩) ops).1.map fun a => some (number a) := by
    have := congrArg (List.map (Option.map number)) h1
    simpa [List.map_map, Function.comp_def] using this
  have h4 : ran (Pigro.run g (State.init 0) ops).2.env.log = (run ([], ⟨(0 : Int), []⟩) ops).2.2.ran := by rw [← h2]; rfl
  rw [shownL, shownS, h3, h4]

instance (g : Glue) : Decidable g.Retains := by unfold Glue.Retains; infer_instance
instance (g : Glue) : Decidable (KeepsAll g) := by unfold KeepsAll; infer_instance

/-- **C95**, when it holds: the library behaves as functions with a memory in all programs exactly if nothing is handed over by copy (but the parameters of `lazy_value`), and results are values. The pinned code
does neither. -/
theorem C95_exact (g : Glue) : (∀ (w : Int) (ops : List P), Agrees g w ops) ↔ KeepsAll g := by
  refine ⟨fun h => ?_, fun hg w ops => C95_memory_partial reflNe g hg w ops⟩
  have h1 : ∀ ops ∈ probes, shownL g ops = shownS ops := fun ops _ => shown_of_agrees g ops (h 0 ops)
  clear h
  obtain ⟨b1, b2, b3, b4, b5, b6, b7, b8⟩ := g
  revert h1
  revert b1 b2 b3 b4 b5 b6 b7 b8
  decide +kernel

example : ¬ ∀ (w : Int) (ops : List P), Agrees Glue.asWritten w ops := by
  rw [C95_exact]
  decide

/-! ### Values that differ from themselves -/

/-- A type whose values differ even from themselves, as a floating point NaN. -/
inductive Nan where
  | nan

instance : CxxData Nan := ⟨fun _ _ => true, .nan⟩

/-- Returns what it is given. -/
def identity : UFn Nan Unit Nat Nat := ⟨⟨1, .val, fun s vs w => (.ok (vs.headD .rvoid), s, w)⟩, 0⟩

/-- **C95** fails for values that differ from themselves: as a value among the dependencies, such a value is never found changed by the library. -/
theorem C95_nan : ¬ Agrees Glue.retained () [(.mk identity [.value (.data .nan)] : Op Nan Unit Nat Nat), .call 0, .call 0] := by
  intro h
  have h1 := congrArg (fun x => x.ran.length) h.2
  revert h1
  decide +kernel

end Pigro.Rem
