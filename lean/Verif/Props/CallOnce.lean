import Verif.Proofs.CallOnce
import Verif.Props.Handwritten
/-!
# C73: the simplified `lazy` of the documentation explains the library

docs/walkthrough/call_once.md explains `pigro::lazy(f)` with a flag, docs/walkthrough/caching.md with an optional; call_once.md:36-71 is the program that is
replaced, and has a bug that "has disappeared" (call_once.md:104) with the library.
-/
namespace Pigro
open Demo
variable {D W E S : Type} [CxxData D]

/-- **C73** (if caches are kept). Every program that wraps functions without dependencies, copies what it gets and calls it, in any order, does the same with the
library as with the simplified versions: the same results and exceptions, the same invocations with the same own states, the same world. For all functions,
pure or not, throwing or not.

Missing for the full property: the pinned code, see `C73_pinned`. -/
theorem C73_same_partial (g : Glue) (hg : g.Retains) (hval : g.resultByRef = false) (ops : List (SOp D W E S))
    (hf : ∀ f ∈ SOp.fns ops, f.Kept g.regParamByValue) (w : W) :
    let a := run g (State.init w) (ops.map SOp.withLibrary)
    let b := simpleRun ([], ⟨w, []⟩) ops
    a.1 = b.1 ∧ a.2.env = b.2.2 := by
  have h := simple_run g hg hval ops ([], ⟨w, []⟩) (by simp) hf
  have h' : run g (State.init w) (ops.map SOp.withLibrary) =
    ((simpleRun ([], ⟨w, []⟩) ops).1, ⟨(simpleRun ([], ⟨w, []⟩) ops).2.1.map Simple.obj, (simpleRun ([], ⟨w, []⟩) ops).2.2⟩) := h
  simp only [h']
  exact ⟨trivial, trivial⟩

/-- **C73, the program with two flags.** With the bug fixed, it does what the program with the library does (if caches are kept): for any sequence of visits of
the two places and any initializations, pure or not; if one throws, the visit ends with that exception, and the next visit tries again. -/
theorem C73_two_flags (g : Glue) (hg : g.Retains) (hval : g.resultByRef = false) (opengl opencl : UFn D W E S)
    (hret : opengl.ret = .void ∧ opencl.ret = .void) (hf : opengl.Kept g.regParamByValue ∧ opencl.Kept g.regParamByValue) (w : W)
    (l : List (Bool × (W → W))) :
    let a := ensureVisits g (run g (State.init w) [.mk opengl [], .mk opencl []]).2 l
    let b := Flags.visits true ⟨opengl, opencl, false, false⟩ ⟨w, []⟩ l
    a.1 = b.1 ∧ a.2.env = b.2.2 := by
  have h := simple_run g hg hval [.mk opengl, .mk opencl] ([], ⟨w, []⟩) (by simp) (by
    intro f hm
    simp only [SOp.fns, List.mem_cons, List.not_mem_nil, or_false] at hm
    rcases hm with rfl | rfl
    · exact hf.1
    · exact hf.2)
  have h' : (run g (State.init w) [.mk opengl [], .mk opencl []]).2 = ⟨[(Simple.once opengl false).obj, (Simple.once opencl false).obj], ⟨w, []⟩⟩ := by
    have h2 : run g (State.init w) [.mk opengl [], .mk opencl []] =
      ((simpleRun ([], ⟨w, []⟩) [.mk opengl, .mk opencl]).1, ⟨(simpleRun ([], ⟨w, []⟩) [.mk opengl, .mk opencl]).2.1.map Simple.obj, ⟨w, []⟩⟩) := h
    rw [h2]
    simp [simpleRun, simpleStep, simpleLazy, hret.1, hret.2]
  rw [h']
  exact visits_sim g hg hval l ⟨opengl, opencl, false, false⟩ ⟨w, []⟩ ⟨by simp [hret.1], hf.1⟩ ⟨by simp [hret.2], hf.2⟩

omit [CxxData D] in
/-- **C73, the bug.** As documented, the handwritten program initializes OpenCL again at every visit "elsewhere", until the first visit of the other place has
been made; OpenGL is initialized once. For all initializations that do not throw and all sequences of visits. -/
theorem C73_bug (opengl opencl : UFn D W E S) (hid : opengl.id ≠ opencl.id) (h1 : ∀ s w, ∃ v, (opengl.run s [] w).1 = .ok v)
    (h2 : ∀ s w, ∃ v, (opencl.run s [] w).1 = .ok v) (w : W) (l : List (Bool × (W → W))) :
    let b := Flags.visits false ⟨opengl, opencl, false, false⟩ ⟨w, []⟩ l
    drawn opengl.id b.2.2.log = min 1 l.length ∧
    drawn opencl.id b.2.2.log = (l.takeWhile (·.1)).length + (if l.all (·.1) then 0 else 1) := by
  have := visits_counts false l ⟨opengl, opencl, false, false⟩ ⟨w, []⟩ hid h1 h2
  refine ⟨?_, ?_⟩
  · rw [this.1]
    cases l with
    | nil => rfl
    | cons a l => simp [drawn]
  · rw [this.2]
    simp [drawn]

/-- **C73, the bug has disappeared**: the program with the library initializes both once (if caches are kept), at the first visit. -/
theorem C73_no_bug (g : Glue) (hg : g.Retains) (hval : g.resultByRef = false) (opengl opencl : UFn D W E S)
    (hret : opengl.ret = .void ∧ opencl.ret = .void) (hf : opengl.Kept g.regParamByValue ∧ opencl.Kept g.regParamByValue) (hid : opengl.id ≠ opencl.id)
    (h1 : ∀ s w, ∃ v, (opengl.run s [] w).1 = .ok v) (h2 : ∀ s w, ∃ v, (opencl.run s [] w).1 = .ok v) (w : W) (l : List (Bool × (W → W))) :
    let a := ensureVisits g (run g (State.init w) [.mk opengl [], .mk opencl []]).2 l
    drawn opengl.id a.2.env.log = min 1 l.length ∧ drawn opencl.id a.2.env.log = min 1 l.length := by
  have h := visits_counts true l ⟨opengl, opencl, false, false⟩ ⟨w, []⟩ hid h1 h2
  simp only [(C73_two_flags g hg hval opengl opencl hret hf w l).2]
  refine ⟨?_, ?_⟩
  · rw [h.1]
    cases l with
    | nil => rfl
    | cons a l => simp [drawn]
  · rw [h.2]
    cases l with
    | nil => rfl
    | cons a l => simp [drawn]

/-- **C73 is false of the pinned code**: the first call is undefined, though the function is invoked. For all functions that do not throw there. -/
theorem C73_pinned (f : UFn D W E S) (w : W) (v : Val D) (hv : (f.run f.st [] w).1 = .ok v) :
    (run .asWritten (State.init w) ([.mk f, .call 0].map SOp.withLibrary)).1 = [.unit, .ret .ub] ∧
    (simpleRun ([], ⟨w, []⟩) [.mk f, .call 0]).1 = [.unit, .ret (.ok (if f.ret = .val then some v else none))] := by
  constructor
  · have h : (step .asWritten (State.init w) (.mk f [])) = (.unit, ⟨[(simpleLazy f).obj], ⟨w, []⟩⟩) := by
      simp [step, resolveAll, simpleLazy_obj, State.init]
    simp only [List.map_cons, List.map_nil, SOp.withLibrary, run, h]
    rw [step_call .asWritten ⟨[(simpleLazy f).obj], ⟨w, []⟩⟩ 0 _ rfl, pinned_call f ⟨w, []⟩ v hv]
  · rcases hr : f.run f.st [] w with ⟨r, s, w'⟩
    rw [hr] at hv
    simp only at hv
    subst hv
    cases ht : f.ret <;> simp [simpleRun, simpleStep, simpleLazy, ht, Simple.call, UFn.invoke, hr]

/-- Counts its invocations in the world, and throws the first time. -/
def Demo.initLate : F := ⟨⟨31, .void, fun s _ w => (if s = 0 then .error 9 else .ok .rvoid, s + 1, w + 1)⟩, 0⟩
/-- Counts its invocations in the world. -/
def Demo.initNow : F := ⟨⟨32, .void, fun s _ w => (.ok .rvoid, s + 1, w + 100)⟩, 0⟩
/-- Another one. -/
def Demo.initOther : F := ⟨⟨33, .void, fun s _ w => (.ok .rvoid, s + 1, w + 10000)⟩, 0⟩
/-- docs/walkthrough/caching.md:5-10, with the number of invocations of everything so far as answer. -/
def Demo.deepThought : F := ⟨⟨42, .val, fun s _ w => (.ok (.data (42 + w)), s + 1, w + 7500000)⟩, 0⟩

/-- `C73_same_partial` for a program with a throwing function, a copy made before and a copy made after the first call. -/
example : let ops : List (SOp Int Int Nat Nat) := [.mk initLate, .mk deepThought, .copy 1, .call 0, .call 1, .copy 1, .call 1, .call 0, .call 2, .call 3, .call 0]
    let a := run .retained (State.init 0) (ops.map SOp.withLibrary)
    let b := simpleRun ([], ⟨0, []⟩) ops
    a.1 = b.1 ∧ a.2.env = b.2.2 :=
  C73_same_partial .retained ⟨rfl, rfl, rfl, rfl⟩ rfl _ (fun _ _ => .inl rfl) 0

/-- What that program does: the exception, then the answer, kept by the copy made after it, computed again by the copy made before it. -/
example : (simpleRun ([], ⟨0, []⟩) ([.mk initLate, .mk deepThought, .copy 1, .call 0, .call 1, .copy 1, .call 1, .call 0, .call 2, .call 3, .call 0] :
      List (SOp Int Int Nat Nat))).1.map (fun o => match o with | .ret (.ok (some (.data n))) => n | .ret (.thrown e) => -e | _ => 0) =
    [0, 0, 0, -9, 43, 0, 43, 0, 7500044, 43, 0] := by decide +kernel

/-- `C73_two_flags` if the first initialization throws in the first visit. -/
example : let l : List (Bool × (Int → Int)) := [(true, id), (false, (· * 2)), (true, (· * 3))]
    let a := ensureVisits .retained (run .retained (State.init 0) [.mk initLate [], .mk initNow []]).2 l
    let b := Flags.visits true ⟨initLate, initNow, false, false⟩ ⟨0, []⟩ l
    a.1 = b.1 ∧ a.2.env = b.2.2 :=
  C73_two_flags .retained ⟨rfl, rfl, rfl, rfl⟩ rfl initLate initNow ⟨rfl, rfl⟩ ⟨.inl rfl, .inl rfl⟩ 0 _

/-- What they do. -/
example : let l : List (Bool × (Int → Int)) := [(true, id), (false, (· * 2)), (true, (· * 3))]
    (Flags.visits true ⟨initLate, initNow, false, false⟩ ⟨0, []⟩ l).1 = [.thrown 9, .ok (), .ok ()] ∧
    (Flags.visits true ⟨initLate, initNow, false, false⟩ ⟨0, []⟩ l).2.2.w = (1 + 1 + 100) * 2 * 3 := by decide +kernel

/-- `C73_bug` and `C73_no_bug`: three visits "elsewhere", then one of the other place, then "elsewhere" again: four initializations instead of one. -/
example : let l : List (Bool × (Int → Int)) := [(true, id), (true, id), (true, id), (false, id), (true, id)]
    drawn initNow.id (Flags.visits false ⟨initOther, initNow, false, false⟩ ⟨0, []⟩ l).2.2.log = 4 ∧
    drawn initNow.id (ensureVisits .retained (run .retained (State.init 0) [.mk initOther [], .mk initNow []]).2 l).2.env.log = 1 :=
  ⟨(C73_bug initOther initNow (by decide) (fun _ _ => ⟨_, rfl⟩) (fun _ _ => ⟨_, rfl⟩) 0 _).2,
   (C73_no_bug .retained ⟨rfl, rfl, rfl, rfl⟩ rfl initOther initNow ⟨rfl, rfl⟩ ⟨.inl rfl, .inl rfl⟩ (by decide) (fun _ _ => ⟨_, rfl⟩) (fun _ _ => ⟨_, rfl⟩) 0 _).2⟩

/-- `C73_pinned` for the answer to everything. -/
example : (run .asWritten (State.init 0) ([.mk deepThought, .call 0].map SOp.withLibrary)).1 = [.unit, .ret .ub] :=
  (C73_pinned deepThought 0 (.data 42) rfl).1

end Pigro
