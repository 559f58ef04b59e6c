import Verif.Proofs.Forget
import Verif.Props.RememberMem
/-!
# C96: handed over by copy, a lazy function is an expression evaluated anew
-/
namespace Pigro.Fgt
open Rem
variable {D W E S : Type}

/-- The library, with hand-overs `g`, evaluates anew each time: the answers, the invocations with their arguments in their order, and the world are those of the specification. -/
def Agrees [CxxData D] (g : Glue) (w : W) (ops : List (Op D W E S)) : Prop :=
  (Pigro.run g (State.init w) ops).1.map answer = (run ([], ⟨w, []⟩) ops).1.map some ∧ view (Pigro.run g (State.init w) ops).2.env = (run ([], ⟨w, []⟩) ops).2.2

/-- **C96.** In every program, with arbitrary functions and values (also such as differ from themselves): if what calls leave behind is lost in copies (`Forgets`), and results are values, every call and every
poll of a lazy function runs all its plain functions, and all functions of the lazy functions it is made of, once, each with the state it had when the lazy function was made. -/
theorem C96_anew [CxxData D] (g : Glue) (hg : Forgets g) (w : W) (ops : List (Op D W E S)) : Agrees g w ops := by
  obtain ⟨h1, h2⟩ := run_same g hg ops ([], ⟨w, []⟩) (State.init w) ⟨rfl, by simp, rfl⟩
  exact ⟨h1, h2.view.symm⟩

open Demo

/-- The code as it is written, but for the deduction guide lazy.h:23-24. -/
def noGuide : Glue := { Glue.asWritten with resultByRef := false }

instance (g : Glue) : Decidable (Forgets g) := by unfold Forgets; infer_instance

/-- `x = lazy(sum, 1, tick)`, `y = lazy(sum, x, x)`: `tick`, which counts its calls, never gets beyond its first call; `sum` runs three times per call of `y`. -/
def twice : List P := [.mk sum [.value (.data 1), .function tick], .mk sum [.var 0, .var 0], .call 0, .call 1, .call 1]

example : Agrees noGuide 0 twice ∧ (run ([], ⟨0, []⟩) twice).1.map number = [none, none, some 1, some 2, some 2] ∧
    (run ([], ⟨(0 : Int), []⟩) twice).2.2.ran.map (·.1) = [10, 3, 10, 3, 10, 3, 3, 10, 3, 10, 3, 3] :=
  ⟨C96_anew _ (by decide) 0 twice, by decide +kernel, by decide +kernel⟩

/-! ### It is exactly such glue -/

/-- Programs by which something kept shows. -/
def probes : List (List P) := [
  [.mk sum [.value (.data 1)], .call 0, .call 0],
  [.mk tick [.function rd], .call 0, .call 0],
  [.mk sum [.function tick], .call 0, .call 0],
  [.mk proc [], .call 0]]

/-- What is compared of a run of the library: numbers returned, and how many functions have run. -/
def shownS (ops : List P) : List (Option (Option Int)) × Nat :=
  ((run ([], ⟨0, []⟩) ops).1.map fun a => some (number a), (run ([], ⟨(0 : Int), []⟩) ops).2.2.ran.length)

theorem shown_of_agrees (g : Glue) (ops : List P) (h : Agrees g 0 ops) : shownL g ops = shownS ops := by
  obtain ⟨h1, h2⟩ := h
  have h3 : (Pigro.run g (State.init 0) ops).1.map (fun ob => (answer ob).map number) = (run ([], ⟨0, []⟩) ops).1.map fun a => some (number a) := by
    have := congrArg (List.map (Option.map number)) h1
    simpa [List.map_map, Function.comp_def] using this
  have h4 : ran (Pigro.run g (State.init 0) ops).2.env.log = (run ([], ⟨(0 : Int), []⟩) ops).2.2.ran := by rw [← h2]; rfl
  rw [shownL, shownS, h3, h4]

/-- **C96**, when it holds: lazy functions are evaluated anew each time, in all programs, exactly if the glue forgets. -/
theorem C96_exact (g : Glue) : (∀ (w : Int) (ops : List P), Agrees g w ops) ↔ Forgets g := by
  refine ⟨fun h => ?_, fun hg w ops => C96_anew g hg w ops⟩
  have h1 : ∀ ops ∈ probes, shownL g ops = shownS ops := fun ops _ => shown_of_agrees g ops (h 0 ops)
  clear h
  obtain ⟨b1, b2, b3, b4, b5, b6, b7, b8⟩ := g
  revert h1
  revert b1 b2 b3 b4 b5 b6 b7 b8
  decide +kernel

/-- The code as it is written forgets, but for the deduction guide, which makes results dangle; and copies the other way round make things neither remembered nor forgotten. -/
example : Forgets noGuide ∧ ¬ Forgets Glue.asWritten ∧ ¬ Forgets Glue.retained ∧
    ¬ Forgets { Glue.retained with regParamByValue := true } ∧ ¬ KeepsAll { Glue.retained with regParamByValue := true } := by decide

end Pigro.Fgt

namespace Pigro.LM
open Cxx Demo
variable {D W E S : Type} [CxxData D]

/-- **C96** at the level of objects, addresses and lifetimes: all copies being made in memory. -/
theorem C96_in_memory (Θ : Empties D W E S) (hΘ : Stateless Θ) (moved : MV D W E S → MV D W E S) (g : Glue) (hg : Fgt.Forgets g) (w : W) (ops : List (Op D W E S)) :
    (runMG (lang Θ moved) g (MState.init w) ops).1.map answerM = (Fgt.run ([], ⟨w, []⟩) ops).1.map some ∧
      Rem.view (runMG (lang Θ moved) g (MState.init w) ops).2.mem.world = (Fgt.run ([], ⟨w, []⟩) ops).2.2 := by
  obtain ⟨h1, h2⟩ := C80_composed Θ hΘ moved g (.ofValue hg.1) w ops
  obtain ⟨h3, h4⟩ := Fgt.C96_anew g hg w ops
  refine ⟨?_, by rw [h2, h4]⟩
  rw [h1, List.map_map, ← h3]
  exact List.map_congr_left fun ob _ => answerM_seen ob

/-- The code without its deduction guide, in memory. -/
example : (runM (lang empties (fun _ => .unit)) false (MState.init 0) Fgt.twice).1.map answerM = (Fgt.run ([], ⟨0, []⟩) Fgt.twice).1.map some ∧
    (Fgt.run ([], ⟨0, []⟩) Fgt.twice).1.map Rem.number = [none, none, some 1, some 2, some 2] := by
  rw [← (C80_as_written (lang empties (fun _ => .unit)) (MState.init 0) Fgt.twice).2]
  exact ⟨(C96_in_memory empties empties_stateless _ Fgt.noGuide (by decide) 0 Fgt.twice).1, by decide +kernel⟩

end Pigro.LM
