import Verif.Props.LazyGlue
import Verif.Props.Remember
/-!
# C95 at the level of objects, addresses and lifetimes
-/
namespace Pigro.LM
open Cxx Demo
variable {D W E S : Type} [CxxData D]

/-- What a client sees of an answer of a program at memory level. `none`: undefined behaviour, or a result whose value cannot be read any more. -/
def answerM : Seen D E → Option (Rem.Answer D E)
  | .unit => some .unit
  | .ret (.ok v) => some (.ret (.ok v))
  | .ret (.thrown e) => some (.ret (.error e))
  | .polled (.ok (some v, c)) => some (.polled (.ok (v, c)))
  | .polled (.thrown e) => some (.polled (.error e))
  | .invalid => some .invalid
  | _ => none

omit [CxxData D] in
theorem answerM_seen (ob : Obs D E) : answerM (seen ob) = Rem.answer ob := by
  cases ob with
  | unit => rfl
  | ret o => cases o <;> rfl
  | polled o =>
    cases o with
    | ok r => by_cases h : r.live = true <;> simp [seen, answerM, Rem.answer, Out.map, h]
    | thrown e => rfl
    | _ => rfl
  | invalid => rfl

/-- **C95** in memory (for glue that hands nothing over by copy): the closures, caches and callables in memory behave as functions with a memory, whichever callables and values are of empty type, and whatever
moved-from objects hold. Missing: what `C95_memory_partial` misses. -/
theorem C95_in_memory_partial (Θ : Empties D W E S) (hΘ : Stateless Θ) (moved : MV D W E S → MV D W E S) (hrefl : ReflNe D) (g : Glue) (hg : Rem.KeepsAll g) (w : W) (ops : List (Op D W E S)) :
    (runMG (lang Θ moved) g (MState.init w) ops).1.map answerM = (Rem.run ([], ⟨w, []⟩) ops).1.map some ∧
      Rem.view (runMG (lang Θ moved) g (MState.init w) ops).2.mem.world = (Rem.run ([], ⟨w, []⟩) ops).2.2 := by
  obtain ⟨h1, h2⟩ := C80_composed Θ hΘ moved g (.ofValue hg.2.2.2) w ops
  obtain ⟨h3, h4⟩ := Rem.C95_memory_partial hrefl g hg w ops
  refine ⟨?_, by rw [h2, h4]⟩
  rw [h1, List.map_map, ← h3]
  exact List.map_congr_left fun ob _ => answerM_seen ob

/-- `lazy(sum, odd, tick)` (`Rem.faulty`), called where `odd` throws: in memory as in the specification. -/
example : (runMG (lang empties (fun _ => .unit)) .retained (MState.init 0) Rem.faulty).1.map answerM = (Rem.run ([], ⟨0, []⟩) Rem.faulty).1.map some ∧
    (Rem.run ([], ⟨0, []⟩) Rem.faulty).1.map Rem.number = [none, some 0, none, some (-9), none, some 3, some 4] :=
  ⟨(C95_in_memory_partial empties empties_stateless _ reflNe _ ⟨⟨rfl, rfl, rfl, rfl⟩, rfl, rfl, rfl⟩ 0 Rem.faulty).1, by decide +kernel⟩

end Pigro.LM
