import Verif.Model.History
import Verif.Model.Handwritten
import Verif.Spec.Handwritten
/-!
# The editor of docs/walkthrough/extra_laziness.md

A lazy function that is not called in every iteration, with a dependency that is expensive to make.
-/
namespace Pigro
variable {D W E S : Type} [CxxData D]

/-- extra_laziness.md:13-17. Whether the cursor is hidden can be seen in the world; `if` without `else`. The outcome after some number of iterations. -/
def editorLoop (g : Glue) (hidden : W → Bool) (x : Nat) (s : State D W E S) (l : List (Option (W → W))) : Out E Unit × State D W E S :=
  whileTrue (fun s => if hidden s.env.w then (.ok (), s) else ((step g s (.call x)).1.discard, (step g s (.call x)).2))
    (fun f s => { s with env := s.env.poke f }) s l

/-- The program with the image as a value dependency: extra_laziness.md:8, then the loop. The image is loaded before `lazy` is called. -/
def editorValue (g : Glue) (hidden : W → Bool) (render pos load : UFn D W E S) (name : Val D) (w : W) (l : List (Option (W → W))) :
    Out E Unit × State D W E S :=
  match load.invoke .fn [name] ⟨w, []⟩ with
  | (.error e, _, env) => (.thrown e, ⟨[], env⟩)
  | (.ok img, _, env) => editorLoop g hidden 0 (run g ⟨[], env⟩ [.mk render [.function pos, .value img]]).2 l

/-- The program with a lazy image: extra_laziness.md:22-23, then the loop. -/
def editorLazy (g : Glue) (hidden : W → Bool) (render pos load : UFn D W E S) (name : Val D) (w : W) (l : List (Option (W → W))) :
    Out E Unit × State D W E S :=
  editorLoop g hidden 1 (run g (State.init w) [.mk load [.value name], .mk render [.function pos, .var 0]]).2 l

end Pigro
