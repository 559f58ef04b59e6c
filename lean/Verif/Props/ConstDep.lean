import Verif.Proofs.ConstDep
import Verif.Proofs.ArrowLoads
import Verif.Props.ExtraLazy
import Verif.Props.LazyA
/-!
# C79: a dependency that is always the same may be a function, a value or a lazy function

docs/walkthrough/dependencies.md: `arrow` as a plain function is called again and again, "even though this image might not change"; as a lazy function it is "optimized
to be called only once".
-/
namespace Pigro
open Demo
variable {D W E S : Type} [CxxData D]

/-- **C79, values.** Replace plain functions that always return the same by the value, in any program: same results, flags and exceptions, same world, same invocations and
comparisons, apart from those that are redundant: the calls of these functions, and comparisons of the value with itself. For all programs, and all functions besides. -/
theorem C79_value (g : Glue) (hg : g.AllOrNothing) (hval : g.resultByRef = false) (κ : Constants D W E S) (hκ : κ.Right) (ops : List (Op D W E S)) (w : W) :
    let a := run g (State.init w) ops
    let b := run g (State.init w) (ops.map (·.settle κ))
    b.1 = a.1 ∧ b.2.env.w = a.2.env.w ∧ Without κ.Redundant a.2.env.log b.2.env.log :=
  settle_sim g hg hval κ hκ ops [] (State.init w) (State.init w) rfl rfl (by simp) ⟨rfl, .nil⟩

/-- **C79, lazy functions.** Replace them (and the values) by lazy functions that return the same: new variables before the statements that use them.

Missing for the full property: the pinned code, see `C79_pinned`. -/
theorem C79_lazy_partial (g : Glue) (hg : g.AllOrNothing) (hval : g.resultByRef = false) (κ : Constants D W E S) (hκ : κ.Right) (ρ : Recipe D W E S) (k : Nat)
    (hρ : ρ.Yields k) (ops : List (Op D W E S)) (hid : ∀ f ∈ wrappedFns ops, f.id ≠ k) (w : W) (hok : ∀ o ∈ (run g (State.init w) ops).1, o ≠ .invalid) :
    let t := desugar ρ [] 0 (ops.map (·.settle κ))
    let a := run g (State.init w) ops
    let b := run g (State.init w) (t.map (·.2))
    marked (t.map (·.1)) b.1 = a.1 ∧ b.2.env.w = a.2.env.w ∧ Without κ.Redundant a.2.env.log (withoutConstants k b.2.env.log) := by
  obtain ⟨h1, h2, h3⟩ := C79_value g hg hval κ hκ ops w
  have hfns : wrappedFns (ops.map (·.settle κ)) = wrappedFns ops := by
    clear hid hok h1 h2 h3
    induction ops with
    | nil => rfl
    | cons op ops ih => cases op <;> first | exact ih | exact congrArg (List.cons _) ih
  obtain ⟨k1, k2, k3⟩ := C75_general g hg hval ρ k hρ (ops.map (·.settle κ)) (by rw [hfns]; exact hid) w (by rw [h1]; exact hok)
  exact ⟨k1.trans h1, k2.trans h2, by rw [k3]; exact h3⟩

/-- **C79, the documented programs**, dependencies.md:25-31 and :62-63: how often the image is loaded, `l` being the iterations and what happens in between. As a plain
function: in every iteration. As a lazy function: once.

Missing for the full property: the pinned code. -/
theorem C79_loads_partial (g : Glue) (hg : g.Retains) (hval : g.resultByRef = false) (render pos load : UFn D W E S) (img : Val D) (hret : pos.ret = .val ∧ load.ret = .val)
    (hkept : pos.Kept g.wrapParamByValue ∧ load.Kept g.wrapParamByValue) (hid : render.id ≠ load.id ∧ pos.id ≠ load.id)
    (hpos : ∀ s w, ∃ v, (pos.run s [] w).1 = .ok v) (hload : ∀ s w, (load.run s [] w).1 = .ok img) (w : W) (l : List (Option (W → W))) :
    let a := run g (State.init w) (.mk render [.function pos, .function load] :: l.map (frame 0))
    let b := run g (State.init w) (.mk load [] :: .mk render [.function pos, .var 0] :: l.map (frame 1))
    loads load.id a.2.env.log = l.countP Option.isNone ∧ loads load.id b.2.env.log = min 1 (l.countP Option.isNone) := by
  have ha : step g (State.init w) (.mk render [.function pos, .function load]) = (.unit, ⟨[cursorOf render (Cache.empty render.ret) pos none
      (.core (.wrapDep load) (.opt none) [.lazyValue (.data CxxData.zero) true])], ⟨w, []⟩⟩) := by
    simp [step, resolveAll, ArgRef.resolve, State.init, pigroLazy, ensureAll, ensureLazy, DepArg.caps, ensureSelect, ensureViable, moreConstrained,
      hret.1, hret.2, detailLazy, Cache.empty, Fun.ret, cursorOf]
  have hb : run g (State.init w) [.mk load [], .mk render [.function pos, .var 0]] = ([.unit, .unit], ⟨[constObj [] load (.opt none),
      cursorOf render (Cache.empty render.ret) pos none (constObj [] load (.opt none))], ⟨w, []⟩⟩) := by
    simp [run, step, resolveAll, ArgRef.resolve, State.init, pigroLazy, ensureAll, ensureLazy, DepArg.caps, Obj.caps, ensureSelect, ensureViable, moreConstrained,
      hret.1, hret.2, detailLazy, Cache.empty, Fun.ret, cursorOf, constObj]
  constructor
  · have := cursorOf_loop g hg hval load.id 1 _ (arrow_plain g hg hval load hret.2 hkept.2 fun s w => ⟨img, hload s w⟩) 0 l render pos (Cache.empty render.ret) none
      (.core (.wrapDep load) (.opt none) [.lazyValue (.data CxxData.zero) true])
      ⟨[cursorOf render (Cache.empty render.ret) pos none (.core (.wrapDep load) (.opt none) [.lazyValue (.data CxxData.zero) true])], ⟨w, []⟩⟩
      hret.1 hkept.1 hpos hid.1 hid.2 ⟨load.st, none, rfl⟩ rfl
    simp only [run, ha, this]
    simp [loads]
  · have := lazy_loop g hg hval load hret.2 img hload 1 render pos hret.1 hkept.1 hpos hid.1 hid.2 l (Cache.empty render.ret) none
      ⟨[constObj [] load (.opt none), cursorOf render (Cache.empty render.ret) pos none (constObj [] load (.opt none))], ⟨w, []⟩⟩ rfl
    have happ : (Op.mk load [] :: .mk render [.function pos, .var 0] :: l.map (frame 1) : List (Op D W E S)) =
      [.mk load [], .mk render [.function pos, .var 0]] ++ l.map (frame 1) := rfl
    simp only [happ, run_append, hb, this]
    simp [loads]

/-- The loops are well-formed. -/
theorem frames_ok (g : Glue) (x : Nat) (l : List (Option (W → W))) : ∀ s : State D W E S, x < s.vars.length → ∀ o ∈ (run g s (l.map (frame x))).1, o ≠ .invalid := by
  induction l with
  | nil => intro s _ o ho; simp [run] at ho
  | cons f l ih =>
    intro s hx o ho
    cases f with
    | some f =>
      simp only [List.map_cons, frame, run, step, List.mem_cons] at ho
      rcases ho with rfl | ho
      · simp
      · exact ih _ (by exact hx) o ho
    | none =>
      simp only [List.map_cons, frame, run, step_call g s x _ (List.getElem?_eq_getElem hx), List.mem_cons] at ho
      rcases ho with rfl | ho
      · simp
      · exact ih _ (by simpa using hx) o ho

omit [CxxData D] in
theorem settle_frames (κ : Constants D W E S) (x : Nat) (l : List (Option (W → W))) : (l.map (frame x)).map (·.settle κ) = l.map (frame x) := by
  rw [List.map_map]
  congr 1
  funext f
  cases f <;> rfl

omit [CxxData D] in
theorem desugar_frames (ρ : Recipe D W E S) (n : Nat) (l : List (Option (W → W))) : desugar ρ [1] n (l.map (frame 0)) = l.map fun f => (true, frame 1 f) := by
  induction l with
  | nil => rfl
  | cons f l ih => cases f <;> simp [frame, desugar, ih]

theorem marked_all {α β : Type} (l : List α) (m : List β) (h : m.length = l.length) : marked (l.map fun _ => true) m = m := by
  induction l generalizing m with
  | nil => cases m <;> simp_all [marked]
  | cons a l ih =>
    cases m with
    | nil => simp at h
    | cons b m => simp only [List.map_cons, marked, ih m (by simpa using h)]

/-- Load the image, or return another value. -/
noncomputable def loadRecipe (load : UFn D W E S) (img : Val D) : Recipe D W E S := fun v =>
  open Classical in if v = img then (load, []) else (constant load.id load.st v, [])

/-- One function always returns the same. -/
noncomputable def onlyLoad (load : UFn D W E S) (img : Val D) : Constants D W E S := fun c =>
  open Classical in if c = load.toFnCode then some img else none

/-- **C79, the documented programs** do the same: same results and exceptions, same world, same invocations of the other functions with the same arguments and same
comparisons, apart from those of the image with itself. For all images that never change, functions, changes of the world and numbers of iterations.

Missing for the full property: the pinned code. -/
theorem C79_documented_partial (g : Glue) (hg : g.AllOrNothing) (hval : g.resultByRef = false) (render pos load : UFn D W E S) (img : Val D) (hret : load.ret = img.retTy)
    (hne : Val.ne img img = false) (hload : ∀ s w, ∃ s', load.run s [] w = (.ok img, s', w)) (hvoid : pos.ret ≠ .void ∧ load.ret ≠ .void)
    (hid : render.id ≠ load.id ∧ pos.id ≠ load.id) (w : W) (l : List (Option (W → W))) :
    let a := run g (State.init w) (.mk render [.function pos, .function load] :: l.map (frame 0))
    let b := run g (State.init w) (.mk load [] :: .mk render [.function pos, .var 0] :: l.map (frame 1))
    b.1.tail = a.1 ∧ b.2.env.w = a.2.env.w ∧
      Without (fun e => (∃ s s', e = .call .dep load.id [] s s') ∨ e = .cmp img img) a.2.env.log (withoutConstants load.id b.2.env.log) := by
  have hκ : (onlyLoad load img).Right := by
    intro c v h
    simp only [onlyLoad] at h
    split at h
    · rename_i hc
      cases h
      subst hc
      exact ⟨hret, hne, hload⟩
    · cases h
  have hρ : (loadRecipe load img).Yields load.id := by
    intro v
    by_cases h : v = img
    · subst h
      simp only [loadRecipe, if_true]
      exact ⟨trivial, hret, by simp, hload⟩
    · simp only [loadRecipe, h, if_false]
      exact ⟨rfl, rfl, by simp, fun s _ => ⟨s, rfl⟩⟩
  have hok : ∀ o ∈ (run g (State.init w) (.mk render [.function pos, .function load] :: l.map (frame 0))).1, o ≠ .invalid := by
    intro o ho
    have ha : ∃ o, step g (State.init w) (.mk render [.function pos, .function load]) = (.unit, ⟨[o], ⟨w, []⟩⟩) := by
      simp [step, resolveAll, ArgRef.resolve, State.init, pigroLazy, ensureAll, ensureLazy, DepArg.caps, ensureSelect, ensureViable, moreConstrained, hvoid.1, hvoid.2]
    obtain ⟨o', ha⟩ := ha
    simp only [run, ha, List.mem_cons] at ho
    rcases ho with rfl | ho
    · simp
    · exact frames_ok g 0 l _ (by simp) o ho
  have hpc : pos.toFnCode ≠ load.toFnCode := fun h => hid.2 (by rw [h])
  have hfr : wrappedFns (l.map (frame 0) : List (Op D W E S)) = [] := by
    clear hok
    induction l with
    | nil => rfl
    | cons f l ih => cases f <;> simpa [frame, wrappedFns] using ih
  obtain ⟨h1, h2, h3⟩ := C79_lazy_partial g hg hval (onlyLoad load img) hκ (loadRecipe load img) load.id hρ _
    (by
      intro f hf
      simp only [wrappedFns, hfr, List.mem_singleton] at hf
      subst hf
      exact hid.1) w hok
  have ht : desugar (loadRecipe load img) [] 0 ((Op.mk render [.function pos, .function load] :: l.map (frame 0)).map (·.settle (onlyLoad load img))) =
      (false, .mk load []) :: (true, .mk render [.function pos, .var 0]) :: l.map fun f => (true, frame 1 f) := by
    rw [List.map_cons, settle_frames]
    simp [Op.settle, ArgRef.settle, onlyLoad, hpc, desugar, desugarDeps, loadRecipe, desugar_frames]
  rw [ht] at h1 h2 h3
  have hm : ((false, Op.mk load []) :: (true, .mk render [.function pos, .var 0]) :: l.map (fun f => (true, frame 1 f)) : List (Bool × Op D W E S)).map (·.2) =
      .mk load [] :: .mk render [.function pos, .var 0] :: l.map (frame 1) := by simp
  have hb : ((false, Op.mk load []) :: (true, .mk render [.function pos, .var 0]) :: l.map (fun f => (true, frame 1 f)) : List (Bool × Op D W E S)).map (·.1) =
      false :: true :: l.map fun _ => true := by simp
  rw [hm] at h1 h2 h3
  rw [hb] at h1
  refine ⟨?_, h2, ?_⟩
  · rw [← h1]
    simp only [run, marked, List.tail_cons]
    rw [marked_all]
    rw [run_length]
    simp
  · refine Without.mono ?_ h3
    rintro e ⟨c, v, hc, h⟩
    simp only [onlyLoad] at hc
    split at hc
    · rename_i hcc
      cases hc
      subst hcc
      exact h
    · cases hc

/-- **C79 is false of the pinned code**: both programs have undefined behaviour as soon as the cursor is drawn. -/
theorem C79_pinned (render pos load : UFn D W E S) (hret : pos.ret = .val ∧ load.ret = .val) (w : W) :
    (run .asWritten (State.init w) [.mk render [.function pos, .function load], .call 0]).1 = [.unit, .ret .ub] ∧
    (run .asWritten (State.init w) [.mk load [], .mk render [.function pos, .var 0], .call 1]).1 = [.unit, .unit, .ret .ub] := by
  constructor <;> simp [run, step, resolveAll, ArgRef.resolve, State.init, pigroLazy, ensureAll, ensureLazy, DepArg.caps, Obj.caps, ensureSelect, ensureViable,
    moreConstrained, hret.1, hret.2, detailLazy, Cache.empty, Fun.ret, call0, evalN, evalDeps, Out.map, coreTail, any, anyS, readValues, Glue.asWritten, keep]

/-! ### Examples -/

/-- `auto arrow = [] { return load_image("arrow.png"); };` counting how often it is called. -/
def Demo.loadArrow : F := ⟨⟨24, .val, fun s _ w => (.ok (.data 1007), s + 1, w)⟩, 0⟩

/-- Numbers, one of which is not a number: different from itself. -/
structure Demo.Float3 where
  n : Int
  deriving DecidableEq

instance : CxxData Demo.Float3 := ⟨fun a b => a.n != b.n || a.n == 3, ⟨0⟩⟩

/-- A function that always returns the same, the number `n`. -/
def Demo.always (n : Int) : UFn Float3 Int Nat Nat := ⟨⟨24, .val, fun s _ w => (.ok (.data ⟨n⟩), s + 1, w)⟩, 0⟩

/-- Counts how often it is called. -/
def Demo.times : UFn Float3 Int Nat Nat := ⟨⟨25, .val, fun s _ w => (.ok (.data ⟨s⟩), s + 1, w)⟩, 0⟩

/-- That the value is not different from itself is needed: a plain function that always returns a not-a-number makes `times` be called every time, a value and a lazy
function do not. -/
theorem C79_nan :
    let a := (run .retained (State.init 0) [.mk times [.function (always 3)], .call 0, .call 0, .call 0]).2.env.log
    let b := (run .retained (State.init 0) [.mk times [.value (.data ⟨3⟩)], .call 0, .call 0, .call 0]).2.env.log
    let c := (run .retained (State.init 0) [.mk (always 3) [], .mk times [.var 0], .call 1, .call 1, .call 1]).2.env.log
    let a' := (run .retained (State.init 0) [.mk times [.function (always 4)], .call 0, .call 0, .call 0]).2.env.log
    loads 25 a = 3 ∧ loads 25 b = 1 ∧ loads 25 c = 1 ∧ loads 25 a' = 1 := by decide +kernel

/-- `C79_value` with all functions known to be number 24 of that kind, in a program with lazy functions of lazy functions. -/
noncomputable def Demo.ofArrow : Constants Int Int Nat Nat := onlyLoad loadArrow (.data 1007)

theorem Demo.ofArrow_right : ofArrow.Right := by
  intro c v h
  simp only [ofArrow, onlyLoad] at h
  split at h
  · rename_i hc
    cases h
    subst hc
    exact ⟨rfl, rfl, fun s w => ⟨s + 1, rfl⟩⟩
  · cases h

def Demo.cursors : List (Op Int Int Nat Nat) :=
  [.mk renderAt [.function getPos, .function loadArrow], .call 0, .mk sum [.function loadArrow, .var 0, .function rd], .call 1, .poke (· + 1), .copy 1, .call 2, .poll 0]

example (w : Int) : (run .retained (State.init w) (cursors.map (·.settle ofArrow))).1 = (run .retained (State.init w) cursors).1 :=
  (C79_value .retained (.inr ⟨rfl, rfl, rfl, rfl⟩) rfl ofArrow ofArrow_right cursors w).1

/-- What it looks like: the function is gone, and it is called six times in the one program. -/
example : cursors.map (·.settle ofArrow) = [.mk renderAt [.function getPos, .value (.data 1007)], .call 0, .mk sum [.value (.data 1007), .var 0, .function rd], .call 1,
    .poke (· + 1), .copy 1, .call 2, .poll 0] ∧
    loads 24 (run .retained (State.init 0) cursors).2.env.log = 6 := by
  refine ⟨?_, by decide +kernel⟩
  have h1 : getPos.toFnCode ≠ loadArrow.toFnCode := fun h => absurd (congrArg FnCode.id h) (by decide)
  have h2 : rd.toFnCode ≠ loadArrow.toFnCode := fun h => absurd (congrArg FnCode.id h) (by decide)
  simp [cursors, Op.settle, ArgRef.settle, ofArrow, onlyLoad, h1, h2]

/-- `C79_lazy_partial` for it: a lazy function for every use. -/
example (w : Int) (hok : ∀ o ∈ (run .retained (State.init w) cursors).1, o ≠ .invalid) :
    (run .retained (State.init w) ((desugar (lambdas 99 0) [] 0 (cursors.map (·.settle ofArrow))).map (·.2))).2.env.w = (run .retained (State.init w) cursors).2.env.w :=
  (C79_lazy_partial .retained (.inr ⟨rfl, rfl, rfl, rfl⟩) rfl ofArrow ofArrow_right (lambdas 99 0) 99 (fun _ => ⟨rfl, rfl, by simp [lambdas], fun s _ => ⟨s, rfl⟩⟩) cursors
    (by intro f hf; simp [cursors, wrappedFns] at hf; rcases hf with rfl | rfl <;> decide) w hok).2.1

example : (run .retained (State.init 0) cursors).1.all (fun o => match o with | .invalid => false | _ => true) = true := by decide +kernel

/-- `C79_loads_partial` and `C79_documented_partial` for the documented functions. -/
example (w : Int) (l : List (Option (Int → Int))) :
    loads 24 (run .retained (State.init w) (.mk renderAt [.function getPos, .function loadArrow] :: l.map (frame 0))).2.env.log = l.countP Option.isNone :=
  (C79_loads_partial .retained ⟨rfl, rfl, rfl, rfl⟩ rfl renderAt getPos loadArrow (.data 1007) ⟨rfl, rfl⟩ ⟨.inl rfl, .inl rfl⟩ ⟨by decide, by decide⟩ (fun _ _ => ⟨_, rfl⟩)
    (fun _ _ => rfl) w l).1

example (w : Int) (l : List (Option (Int → Int))) :
    (run .retained (State.init w) (.mk loadArrow [] :: .mk renderAt [.function getPos, .var 0] :: l.map (frame 1))).1.tail =
    (run .retained (State.init w) (.mk renderAt [.function getPos, .function loadArrow] :: l.map (frame 0))).1 :=
  (C79_documented_partial .retained (.inr ⟨rfl, rfl, rfl, rfl⟩) rfl renderAt getPos loadArrow (.data 1007) rfl rfl (fun s _ => ⟨s + 1, rfl⟩) ⟨by decide, by decide⟩
    ⟨by decide, by decide⟩ w l).1

/-- Five iterations, two positions: two renderings with either, five loads and one. -/
example : let l : List (Option (Int → Int)) := [none, none, some (· + 20), none, none, none]
    let a := (run .retained (State.init 3) (.mk renderAt [.function getPos, .function loadArrow] :: l.map (frame 0))).2.env.log
    let b := (run .retained (State.init 3) (.mk loadArrow [] :: .mk renderAt [.function getPos, .var 0] :: l.map (frame 1))).2.env.log
    (drawn 25 a, loads 24 a) = (2, 5) ∧ (drawn 25 b, loads 24 b) = (2, 1) := by decide +kernel

/-- `C79_pinned` for them. -/
example : (run .asWritten (State.init 3) [.mk loadArrow [], .mk renderAt [.function getPos, .var 0], .call 1]).1 = [.unit, .unit, .ret .ub] :=
  (C79_pinned renderAt getPos loadArrow ⟨rfl, rfl⟩ 3).2

end Pigro
