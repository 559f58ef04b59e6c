import Verif.Proofs.ExtraLazy
import Verif.Props.Sugar
/-!
# C75: an image that is not loaded until it is needed

docs/walkthrough/extra_laziness.md: a value dependency is made immediately, a lazy function as dependency when it is needed, and only once.
-/
namespace Pigro
open Demo
variable {D W E S : Type} [CxxData D]

/-- **C75, any program.** Replace the value dependencies of any program by lazy functions of values that always return them (and change at most their own state):
same results, flags and exceptions, same invocations of the other functions, same comparisons, same world. -/
theorem C75_general (g : Glue) (hg : g.AllOrNothing) (hval : g.resultByRef = false) (ρ : Recipe D W E S) (k : Nat) (hρ : ρ.Yields k) (ops : List (Op D W E S))
    (hid : ∀ f ∈ wrappedFns ops, f.id ≠ k) (w : W) (hok : ∀ o ∈ (run g (State.init w) ops).1, o ≠ .invalid) :
    let t := desugar ρ [] 0 ops
    let a := run g (State.init w) ops
    let b := run g (State.init w) (t.map (·.2))
    marked (t.map (·.1)) b.1 = a.1 ∧ b.2.env.w = a.2.env.w ∧ withoutConstants k b.2.env.log = a.2.env.log :=
  sugar_sim (pre := []) g hg (by simp [Glue.EquallyLive, hval]) ρ k hρ (by simp [hval]) ops [] [] (State.init w) (State.init w) ⟨rfl, by simp, rfl, by simp, by simp⟩
    ⟨rfl, rfl⟩ hid hok

/-- **C75** (caches kept), the same cursor: if loading always gives the same image and has no effect, both editors do the same in every iteration, apart from
when the image is loaded: same invocations of the other functions with the same arguments, same comparisons, same world, same exception. For all such functions,
changes of the world and numbers of iterations.

Missing for the full property: the pinned code, see `C75_pinned`; images that change, see `C75_changing_image`. -/
theorem C75_same_partial (g : Glue) (hg : g.AllOrNothing) (hval : g.resultByRef = false) (hidden : W → Bool) (render pos load : UFn D W E S) (name img : Val D)
    (hid : render.id ≠ load.id) (hpos : pos.ret ≠ .void) (hret : load.ret = img.retTy) (hname : name.asTuple = none)
    (hload : ∀ s w, ∃ s', load.run s [name] w = (.ok img, s', w)) (w : W) (l : List (Option (W → W))) :
    let a := editorValue g hidden render pos load name w l
    let b := editorLazy g hidden render pos load name w l
    b.1 = a.1 ∧ b.2.env.w = a.2.env.w ∧ ∃ s', a.2.env.log = .call .fn load.id [name] load.st s' :: withoutConstants load.id b.2.env.log := by
  obtain ⟨s', hs'⟩ := hload load.st w
  obtain ⟨h1, h2, h3, h4⟩ := editor_vars g render pos load name img ⟨w, [.call .fn load.id [name] load.st s']⟩ ⟨w, []⟩ hid hret hpos
  have := editor_same (pre := [.call .fn load.id [name] load.st s']) g hg (by simp [Glue.EquallyLive, hval]) hidden _ _
    (arrowRecipe_yields load name img hret hname hload) (by simp [hval]) [1] 0 l _ _ _ h1 (by rw [h2]; exact Nat.zero_lt_one)
    (by rw [h3, h4]; exact ⟨rfl, rfl⟩)
  obtain ⟨k1, k2, k3⟩ := this
  simp only [editorValue, editorLazy, UFn.invoke, hs', List.nil_append]
  exact ⟨k1.symm, k2, s', k3.symm⟩

/-- **C75** (caches kept), loaded when needed and once: whatever the functions do, the image is loaded at most once, and not at all while the cursor is hidden; if the
position can always be obtained, it is loaded exactly once as soon as the cursor is visible for the first time (take any prefix of the iterations for `l`). -/
theorem C75_once_partial (g : Glue) (hg : g.Retains) (hval : g.resultByRef = false) (hidden : W → Bool) (render pos load : UFn D W E S) (name : Val D)
    (hid : render.id ≠ load.id) (hret : pos.ret = .val ∧ load.ret = .val) (hkept : pos.Kept g.wrapParamByValue ∧ load.Kept g.regParamByValue)
    (hname : name.asTuple = none) (w : W) (l : List (Option (W → W))) :
    let n := drawn load.id (editorLazy g hidden render pos load name w l).2.env.log
    n ≤ 1 ∧ (shown hidden w l = false → n = 0) ∧ ((∀ s w, ∃ v, (pos.run s [] w).1 = .ok v) → shown hidden w l = true → n = 1) := by
  obtain ⟨h1, h2⟩ := editor_start g render pos load hret.1 hret.2 name w
  have := editor_loop g hg hval hidden name hname 1 l render pos load _ _ _ _ ⟨hret.1, hret.2, hkept.1, hkept.2, hid⟩ h1
  simp only [h2] at this
  obtain ⟨k1, k2⟩ := this
  have h0 : drawn load.id ([] : List (Ev D S)) = 0 := rfl
  simp only [h0, Nat.zero_add] at k1 k2
  refine ⟨Nat.le_trans k1 ?_, ?_, ?_⟩
  · simp only [Option.isSome_none, Bool.false_eq_true, if_false]
    split <;> omega
  · intro hs
    simp only [Option.isSome_none, Bool.false_eq_true, if_false, hs] at k1
    exact Nat.le_zero.mp k1
  · intro hp hs
    simp only [Option.isSome_none, Bool.false_eq_true, if_false, hs, if_true] at k2
    exact k2 hp

theorem mk_env (g : Glue) (s : State D W E S) (f : UFn D W E S) (deps : List (ArgRef D W E S)) : (step g s (.mk f deps)).2.env = s.env := by
  simp only [step]
  split <;> rfl

/-- Nothing happens while the cursor is hidden. -/
theorem hidden_loop (g : Glue) (hidden : W → Bool) (x : Nat) (l : List (Option (W → W))) : ∀ s : State D W E S, shown hidden s.env.w l = false →
    (editorLoop g hidden x s l).1 = .ok () ∧ (editorLoop g hidden x s l).2.env.log = s.env.log := by
  induction l with
  | nil => intro s _; exact ⟨rfl, rfl⟩
  | cons f l ih =>
    intro s hs
    cases f with
    | some f => exact ih { s with env := s.env.poke f } hs
    | none =>
      simp only [shown, Bool.or_eq_false_iff, Bool.not_eq_false'] at hs
      have := ih s hs.2
      simpa only [editorLoop, whileTrue, hs.1, if_true] using this

/-- The drawback: as a value dependency, the image is loaded even if the cursor never is visible; an exception then ends the program, which would have run on
with a lazy image. For all variants of the code. -/
theorem C75_value (g : Glue) (hidden : W → Bool) (render pos load : UFn D W E S) (name : Val D) (w : W) (l : List (Option (W → W)))
    (hs : shown hidden w l = false) (hs' : shown hidden (load.run load.st [name] w).2.2 l = false) :
    (editorValue g hidden render pos load name w l).2.env.log = [.call .fn load.id [name] load.st (load.run load.st [name] w).2.1] ∧
    (∀ e, (load.run load.st [name] w).1 = .error e → (editorValue g hidden render pos load name w l).1 = .thrown e) ∧
    (editorLazy g hidden render pos load name w l).1 = .ok () ∧ (editorLazy g hidden render pos load name w l).2.env.log = [] := by
  refine ⟨?_, ?_, ?_⟩
  · rcases hr : load.run load.st [name] w with ⟨e | img, s', w'⟩
    · simp [editorValue, UFn.invoke, hr]
    · rw [hr] at hs'
      simp only [editorValue, UFn.invoke, hr]
      rw [(hidden_loop g hidden 0 l _ (by simpa [run, mk_env] using hs')).2]
      simp [run, mk_env]
  · intro e he
    rcases hr : load.run load.st [name] w with ⟨e' | img, s', w'⟩
    · rw [hr] at he
      cases he
      simp [editorValue, UFn.invoke, hr]
    · rw [hr] at he
      cases he
  · obtain ⟨h1, h2⟩ := hidden_loop g hidden 1 l (run g (State.init w) [.mk load [.value name], .mk render [.function pos, .var 0]]).2
      (by simpa [run, mk_env, State.init] using hs)
    refine ⟨h1, h2.trans ?_⟩
    simp [run, mk_env, State.init]

/-- **C75 is false of the pinned code**: the first iteration with a visible cursor has undefined behaviour, before the image is loaded. -/
theorem C75_pinned (hidden : W → Bool) (render pos load : UFn D W E S) (name : Val D) (hpos : pos.ret ≠ .void) (w : W) (l : List (Option (W → W)))
    (hs : shown hidden w l = true) :
    (editorLazy .asWritten hidden render pos load name w l).1 = .ub ∧ (editorLazy .asWritten hidden render pos load name w l).2.env.log = [] := by
  have hloop : ∀ (l : List (Option (W → W))) (s : State D W E S), (∃ cr cp o, s.vars[1]? = some (.unregularized (.unwrapped (.core (.regularized render) cr
      [.core (.wrapDep pos) cp [.lazyValue (.data CxxData.zero) true], o])))) → shown hidden s.env.w l = true →
      (editorLoop .asWritten hidden 1 s l).1 = .ub ∧ (editorLoop .asWritten hidden 1 s l).2.env.log = s.env.log := by
    intro l
    induction l with
    | nil => intro s _ h; simp [shown] at h
    | cons f l ih =>
      intro s hx hs
      cases f with
      | some f => exact ih { s with env := s.env.poke f } hx hs
      | none =>
        by_cases hh : hidden s.env.w = true
        · simp only [shown, hh, Bool.not_true, Bool.false_or] at hs
          have := ih s hx hs
          simpa only [editorLoop, whileTrue, hh, if_true] using this
        · obtain ⟨cr, cp, o, hx⟩ := hx
          have hstep := step_call .asWritten s 1 _ hx
          have hd : evalDeps .asWritten [.core (.wrapDep pos) cp [.lazyValue (.data CxxData.zero) true], o] s.env =
              (.ub, [.core (.wrapDep pos) cp [.lazyValue (.data CxxData.zero) true], o], s.env) := by
            simp [evalDeps, evalN, Out.map, coreTail, any, anyS, readValues, Glue.asWritten, keep]
          rw [call0_facade, evalN_core_fail .asWritten _ _ _ _ hd rfl] at hstep
          simp [editorLoop, whileTrue, hh, hstep, Obs.discard, Out.map]
  have hv : ∃ cr cp o, (run .asWritten (State.init w) [.mk load [.value name], .mk render [.function pos, .var 0]]).2.vars[1]? = some (.unregularized (.unwrapped
      (.core (.regularized render) cr [.core (.wrapDep pos) cp [.lazyValue (.data CxxData.zero) true], o]))) := by
    simp [run, step, resolveAll, ArgRef.resolve, State.init, pigroLazy, ensureAll, ensureLazy, DepArg.caps, Obj.caps, ensureSelect, ensureViable, moreConstrained,
      hpos, detailLazy, Fun.ret]
  have he : (run .asWritten (State.init w) [.mk load [.value name], .mk render [.function pos, .var 0]]).2.env = (⟨w, []⟩ : Env D W S) := by
    simp [run, mk_env, State.init]
  obtain ⟨h1, h2⟩ := hloop l _ hv (by rw [he]; exact hs)
  exact ⟨h1, by rw [editorLazy, h2, he]⟩

/-- The cursor is hidden in the upper part of the screen. -/
def Demo.isHidden (w : Int) : Bool := decide (w < 10)

/-- An image that changes. -/
def Demo.loadClock : F := ⟨⟨24, .val, fun s _ w => (.ok (.data w), s + 1, w)⟩, 0⟩

/-- The condition of `C75_same_partial` on the image is needed: a value dependency is the image of the beginning, a lazy one that of the first use. -/
theorem C75_changing_image : let l : List (Option (Int → Int)) := [none, some (· + 20), none, some (· + 5), none]
    lastArgs (editorValue .retained isHidden renderAt getPos loadClock (.data 7) 3 l).2.env.log = some [28, 3] ∧
    lastArgs (editorLazy .retained isHidden renderAt getPos loadClock (.data 7) 3 l).2.env.log = some [28, 23] := by decide +kernel

/-- `C75_same_partial` for an editor: the image is number 1007. -/
example (w : Int) (l : List (Option (Int → Int))) :
    (editorLazy .retained isHidden renderAt getPos loadImage (.data 7) w l).2.env.w = (editorValue .retained isHidden renderAt getPos loadImage (.data 7) w l).2.env.w :=
  (C75_same_partial .retained (.inr ⟨rfl, rfl, rfl, rfl⟩) rfl isHidden renderAt getPos loadImage (.data 7) (.data 1007) (by decide) (by decide) rfl rfl
    (fun s w => ⟨s + 1, rfl⟩) w l).2.1

/-- It renders three times, with the same image; the image is loaded between the first and the second position in one of them. -/
example : let l : List (Option (Int → Int)) := [none, some (· + 20), none, none, some (· + 5), none, some (fun _ => 0), none, some (fun _ => 12), none]
    let a := (editorValue .retained isHidden renderAt getPos loadImage (.data 7) 3 l).2.env.log
    let b := (editorLazy .retained isHidden renderAt getPos loadImage (.data 7) 3 l).2.env.log
    let ids (l : List (Ev Int Nat)) := (invoked l).map fun e => match e with | .call _ id _ _ _ => id | _ => 0
    ids a = [24, 22, 25, 22, 22, 25, 22, 25] ∧ ids b = [22, 24, 25, 22, 22, 25, 22, 25] := by decide +kernel

/-- `C75_once_partial` for it, with all prefixes: the image is loaded in the iteration that is the first one with a visible cursor. -/
example (w : Int) (l : List (Option (Int → Int))) (hs : shown isHidden w l = true) :
    drawn 24 (editorLazy .retained isHidden renderAt getPos loadImage (.data 7) w l).2.env.log = 1 :=
  (C75_once_partial .retained ⟨rfl, rfl, rfl, rfl⟩ rfl isHidden renderAt getPos loadImage (.data 7) (by decide) ⟨rfl, rfl⟩ ⟨.inl rfl, .inl rfl⟩ rfl w l).2.2
    (fun _ _ => ⟨_, rfl⟩) hs

example : ([0, 1, 2, 3, 4, 5] : List Nat).map (fun n =>
    shown isHidden 3 ([none, some (· + 20), none, some (· + 5), none].take n)) = [false, false, false, true, true, true] := by decide +kernel

/-- `C75_value` and a file that does not exist. -/
example : let missing : F := ⟨⟨24, .val, fun s _ w => (.error 2, s + 1, w)⟩, 0⟩
    let l : List (Option (Int → Int)) := [none, none, some (· + 2), none]
    (editorValue .retained isHidden renderAt getPos missing (.data 7) 3 l).1 = .thrown 2 ∧
    (editorLazy .retained isHidden renderAt getPos missing (.data 7) 3 l).1 = .ok () :=
  ⟨(C75_value .retained _ renderAt getPos _ (.data 7) 3 _ (by decide) (by decide)).2.1 2 rfl,
    (C75_value .retained _ renderAt getPos _ (.data 7) 3 _ (by decide) (by decide)).2.2.1⟩

/-- `C75_pinned`: a cursor that is visible at last. -/
example : (editorLazy .asWritten isHidden renderAt getPos loadImage (.data 7) 3 [none, some (· + 20), none]).1 = .ub :=
  (C75_pinned isHidden renderAt getPos loadImage (.data 7) (by decide) 3 _ rfl).1

/-- `C75_general`: images from files, numbered from 1000. -/
example (w : Int) (hok : ∀ o ∈ (run .retained (State.init w) sugarOps).1, o ≠ .invalid) :
    let load : Recipe Int Int Nat Nat := fun v => (⟨⟨99, v.retTy, fun s _ w => (.ok v, s + 1, w)⟩, 5⟩, [.data 1, .rvoid])
    withoutConstants 99 (run .retained (State.init w) ((desugar load [] 0 sugarOps).map (·.2))).2.env.log = (run .retained (State.init w) sugarOps).2.env.log :=
  (C75_general .retained (.inr ⟨rfl, rfl, rfl, rfl⟩) rfl _ 99 (fun _ => ⟨rfl, rfl, by simp, fun s _ => ⟨s + 1, rfl⟩⟩) sugarOps
    (by intro f hf; simp [sugarOps, wrappedFns] at hf; rcases hf with rfl | rfl | rfl <;> decide) w hok).2.2

end Pigro
