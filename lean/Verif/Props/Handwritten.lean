import Verif.Proofs.Handwritten
import Verif.Props.Reactive
/-!
# C72: the program with lazy functions does what the handwritten program does

README.md:14 and docs/_coverpage.md:10 show two programs side by side: docs/comparison-handwritten.png and docs/comparison-using-pigro.png.
-/
namespace Pigro
open Demo
variable {D W E S : Type} [CxxData D]

/-- **C72** (with two repairs). The handwritten program, if it takes back its flag after rendering, and the program with lazy functions, if it passes
`get_drawing_mode` itself to `get_mouse_icon_filename` and the caches are kept, do the same: for all functions, pure or not, all changes of the world between
iterations and every number of iterations, they invoke the same functions in the same order with the same arguments and own states, leave the same world,
and end with the same exception if one is thrown. If the rendering has no result, even the comparisons are the same.

Missing for the full property: the programs as pictured, see `C72_pictured_draws_always`, `C72_unchanged_world` and `C72_pictured_frozen`; the pinned code, see
`C72_pinned`; a handler for exceptions inside of the loop, see `C72_caught`. -/
theorem C72_same_partial (hs : SoundNe D) (g : Glue) (hg : g.Retains) (hval : g.resultByRef = false) (mode name load render pos : UFn D W E S)
    (hret : mode.ret = .val ∧ name.ret = .val ∧ load.ret = .val ∧ pos.ret = .val) (hdep : mode.Kept g.wrapParamByValue ∧ pos.Kept g.wrapParamByValue)
    (hfn : name.Kept g.regParamByValue ∧ load.Kept g.regParamByValue ∧ render.Kept g.regParamByValue) (htup : mode.NoTuple ∧ name.NoTuple)
    (w : W) (l : List (Option (W → W))) :
    let a := withLibrary g (direct mode name load render pos) 2 w l
    let b := handwritten true mode name load render pos w l
    a.1 = b.1 ∧ a.2.env.w = b.2.2.w ∧ invoked a.2.env.log = invoked b.2.2.log ∧ (render.ret ≠ .val → a.2.env.log = b.2.2.log) := by
  obtain ⟨r1, r2, r3, r4⟩ := hret
  obtain ⟨h1, h2⟩ := direct_vars g mode name load render pos r1 r2 r3 r4 w
  refine loop_sim hs g hg hval 2 render.ret l (Hand.init mode name load render pos) (Cache.empty render.ret) _ _ ?_ rfl h1 ?_
  · exact ⟨⟨r4, r1, r2, r3, hdep.2, hdep.1, hfn.1, hfn.2.1, hfn.2.2, htup.1, htup.2⟩, .inl ⟨rfl, rfl, rfl⟩, rfl, Cache.empty_fits _, fun _ => rfl, fun _ => rfl⟩
  · have h3 : (run g (State.init w) (direct mode name load render pos)).2.env = ⟨w, []⟩ := h2
    rw [h3]
    exact ⟨rfl, rfl, fun _ => rfl⟩

/-- **C72 is false of the handwritten program in the picture**: `should_render_mouse_cursor` is never taken back, so every iteration renders, whatever has
changed. For all functions, all changes of the world and every number of iterations. -/
theorem C72_pictured_draws_always (mode name load render pos : UFn D W E S) (hid : load.id ≠ render.id ∧ name.id ≠ render.id) (w : W)
    (l : List (Option (W → W))) (hok : (handwritten false mode name load render pos w l).1 = .ok ()) :
    drawn render.id (handwritten false mode name load render pos w l).2.2.log = l.countP (·.isNone) := by
  have := loop_draws l (Hand.init mode name load render pos) ⟨w, []⟩ hid.1 hid.2 (.inr rfl) hok
  exact this.trans (by simp [drawn])

/-- **C72, how far they differ**: if position and mode always are the same, the program with lazy functions renders once, the handwritten one in every
iteration. -/
theorem C72_unchanged_world (hs : SoundNe D) (hrefl : ReflNe D) (g : Glue) (hg : g.Retains) (hval : g.resultByRef = false)
    (mode name load render pos : UFn D W E S)
    (hret : mode.ret = .val ∧ name.ret = .val ∧ load.ret = .val ∧ pos.ret = .val) (hdep : mode.Kept g.wrapParamByValue ∧ pos.Kept g.wrapParamByValue)
    (hfn : name.Kept g.regParamByValue ∧ load.Kept g.regParamByValue ∧ render.Kept g.regParamByValue) (htup : mode.NoTuple ∧ name.NoTuple)
    (hid : load.id ≠ render.id ∧ name.id ≠ render.id) (vp vm : Val D) (hp : ∀ s w, (pos.run s [] w).1 = .ok vp) (hm : ∀ s w, (mode.run s [] w).1 = .ok vm)
    (hn : ∀ s x w, ∃ v, (name.run s x w).1 = .ok v) (hl : ∀ s x w, ∃ v, (load.run s x w).1 = .ok v) (hr : ∀ s x w, ∃ v, (render.run s x w).1 = .ok v)
    (w : W) (l : List (Option (W → W))) :
    drawn render.id (withLibrary g (direct mode name load render pos) 2 w (none :: l)).2.env.log = 1 ∧
    ((handwritten false mode name load render pos w (none :: l)).1 = .ok () →
      drawn render.id (handwritten false mode name load render pos w (none :: l)).2.2.log = 1 + l.countP (·.isNone)) := by
  constructor
  · obtain ⟨_, _, h3, _⟩ := C72_same_partial hs g hg hval mode name load render pos hret hdep hfn htup w (none :: l)
    rw [← drawn_invoked, h3, drawn_invoked]
    obtain ⟨h', env', e1, e2, e3, e4, e5, e6, e7⟩ := first_frame true vp vm mode name load render pos ⟨w, []⟩ hp hm hn hl hr hid.1 hid.2
    simp only [handwritten, whileTrue, e1]
    rw [(steady_loop hrefl render.id vp vm l h' env' (by rw [e2]; exact hp) (by rw [e3]; exact hm) e4 e5 e6).2, e7]
    rfl
  · intro hok
    rw [C72_pictured_draws_always mode name load render pos hid w _ hok]
    simp
    omega

/-- **C72 is false of the pinned code**: the first iteration is undefined, before anything is invoked. For all functions. -/
theorem C72_pinned (mode name load render pos : UFn D W E S) (hret : mode.ret = .val ∧ name.ret = .val ∧ load.ret = .val ∧ pos.ret = .val) (w : W)
    (l : List (Option (W → W))) :
    (withLibrary .asWritten (direct mode name load render pos) 2 w (none :: l)).1 = .ub ∧
    (withLibrary .asWritten (direct mode name load render pos) 2 w (none :: l)).2.env.log = [] := by
  obtain ⟨r1, r2, r3, r4⟩ := hret
  obtain ⟨h1, h2⟩ := direct_vars .asWritten mode name load render pos r1 r2 r3 r4 w
  have h3 : (run .asWritten (State.init w) (direct mode name load render pos)).2.env = ⟨w, []⟩ := h2
  have h4 : (run .asWritten (State.init w) (direct mode name load render pos)).2.vars[2]? =
    some ((Hand.init mode name load render pos).cursorObj (Cache.empty render.ret)) := h1
  have hc : ∀ env : Env D W S, ∃ o', call0 .asWritten ((Hand.init mode name load render pos).cursorObj (Cache.empty render.ret)) env = (.ub, o', env) := by
    intro env
    simp [Hand.cursorObj, call0, evalN, evalDeps, Glue.asWritten, Hand.init, coreTail, Cache.engaged, readValues, Out.map]
  obtain ⟨o', ho⟩ := hc ⟨w, []⟩
  have hst := step_call .asWritten (run .asWritten (State.init w) (direct mode name load render pos)).2 2 _ h4
  rw [h3, ho] at hst
  simp only [withLibrary, whileTrue, hst, Obs.discard, Out.map]
  exact ⟨trivial, trivial⟩

deriving instance DecidableEq for Out

/-- The arguments of the last invocation of a wrapped function. -/
def Demo.lastArgs (l : List (Ev Int Nat)) : Option (List Int) :=
  l.reverse.findSome? fun e => match e with
    | .call .fn _ args _ _ => some (args.map toInt)
    | _ => none

/-- **C72 is false of the pictured program with lazy functions**, which wraps `get_drawing_mode` in a lazy function of its own: mode 0 at position 5, then mode
1 at position 7. The handwritten program draws the new icon, the other one the old icon. (For all programs: `C69_documented_frozen`.) -/
theorem C72_pictured_frozen :
    lastArgs (handwritten false getMode getName loadImage renderAt getPos 5 [none, some (fun _ => 107), none]).2.2.log = some [7, 1001] ∧
    lastArgs (withLibrary .retained (documented getMode getName loadImage renderAt getPos) 3 5 [none, some (fun _ => 107), none]).2.env.log = some [7, 1000] := by
  decide +kernel

/-- The world is `100 * mode + position`, no mode can be found from 1000 on. -/
def Demo.getModeOr : F := ⟨⟨21, .val, fun s _ w => (if w < 1000 then .ok (.data (w / 100)) else .error 4, s + 1, w)⟩, 0⟩

/-- A `while (true)` whose body catches everything. -/
def Demo.caught {σ : Type} (body : σ → Out Nat Unit × σ) (poke : (Int → Int) → σ → σ) : σ → List (Option (Int → Int)) → σ
  | s, [] => s
  | s, some f :: l => caught body poke (poke f s) l
  | s, none :: l => caught body poke (body s).2 l

/-- **C72 does not survive exceptions that are caught inside of the loop**: position 5; then position 7 while no mode is found; then the mode is back. The
handwritten program draws at position 7; the program with lazy functions has lost the change and draws nothing more. -/
theorem C72_caught : let l : List (Option (Int → Int)) := [none, some (fun _ => 1007), none, some (fun _ => 7), none]
    lastArgs (caught (fun s => Hand.frame true s.1 s.2) (fun f s => (s.1, s.2.poke f)) (Hand.init getModeOr getName loadImage renderAt getPos, ⟨5, []⟩) l).2.log =
      some [7, 1000] ∧
    drawn 25 (caught (fun s => ((step .retained s (.call 2)).1.discard, (step .retained s (.call 2)).2)) (fun f s => { s with env := s.env.poke f })
      (run .retained (State.init 5) (direct getModeOr getName loadImage renderAt getPos)).2 l).env.log = 1 := by decide +kernel

/-- `C72_same_partial` for functions with own state, one of which throws. -/
example (w : Int) (l : List (Option (Int → Int))) :
    let a := withLibrary .retained (direct getModeOr getName loadImage renderAt getPos) 2 w l
    let b := handwritten true getModeOr getName loadImage renderAt getPos w l
    a.1 = b.1 ∧ a.2.env.w = b.2.2.w ∧ invoked a.2.env.log = invoked b.2.2.log ∧ (renderAt.ret ≠ .val → a.2.env.log = b.2.2.log) :=
  C72_same_partial soundNe .retained ⟨rfl, rfl, rfl, rfl⟩ rfl getModeOr getName loadImage renderAt getPos ⟨rfl, rfl, rfl, rfl⟩ ⟨.inl rfl, .inl rfl⟩
    ⟨.inl rfl, .inl rfl, .inl rfl⟩ ⟨by intro s a w v h; simp only [getModeOr] at h; split at h <;> cases h; rfl, by intro s a w v h; cases h; rfl⟩ w l

/-- Five iterations: a rendering in the first, a move, nothing, a new mode, an exception; as seen by both programs. -/
example : let l : List (Option (Int → Int)) := [none, some (fun _ => 7), none, none, some (fun _ => 107), none, some (fun _ => 1000), none, none]
    (withLibrary .retained (direct getModeOr getName loadImage renderAt getPos) 2 5 l).1 = .thrown 4 ∧
    (handwritten true getModeOr getName loadImage renderAt getPos 5 l).1 = .thrown 4 ∧
    drawn 25 (withLibrary .retained (direct getModeOr getName loadImage renderAt getPos) 2 5 l).2.env.log = 3 ∧
    drawn 25 (handwritten true getModeOr getName loadImage renderAt getPos 5 l).2.2.log = 3 := by decide +kernel

/-- `C72_pictured_draws_always` in that loop without the exception: four iterations, four renderings, one of them without any change. -/
example : drawn renderAt.id (handwritten false getModeOr getName loadImage renderAt getPos 5
    [none, some (fun _ => 7), none, none, some (fun _ => 107), none]).2.2.log = 4 :=
  C72_pictured_draws_always getModeOr getName loadImage renderAt getPos (by decide) 5 _ (by decide +kernel)

/-- Always at position 3. -/
def Demo.atThree : F := ⟨⟨22, .val, fun s _ w => (.ok (.data 3), s + 1, w)⟩, 0⟩
/-- Always mode 1. -/
def Demo.modeOne : F := ⟨⟨21, .val, fun s _ w => (.ok (.data 1), s + 1, w)⟩, 0⟩

/-- `C72_unchanged_world`: at any number of iterations. -/
example (n : Nat) : drawn renderAt.id (withLibrary .retained (direct modeOne getName loadImage renderAt atThree) 2 0 (none :: List.replicate n none)).2.env.log = 1 :=
  (C72_unchanged_world soundNe reflNe .retained ⟨rfl, rfl, rfl, rfl⟩ rfl modeOne getName loadImage renderAt atThree ⟨rfl, rfl, rfl, rfl⟩ ⟨.inl rfl, .inl rfl⟩
    ⟨.inl rfl, .inl rfl, .inl rfl⟩ ⟨by intro s a w v h; cases h; rfl, by intro s a w v h; cases h; rfl⟩ (by decide) (.data 3) (.data 1) (fun _ _ => rfl)
    (fun _ _ => rfl) (fun _ _ _ => ⟨_, rfl⟩) (fun _ _ _ => ⟨_, rfl⟩) (fun _ _ _ => ⟨_, rfl⟩) 0 _).1

end Pigro
