import Verif.Proofs.Fusion
import Verif.Props.Reactive
import Verif.Props.LazyGlue
/-!
# C97: what cannot be told apart can be replaced; C98: one function or two

Lazy functions are closures; what they are made of is nobody's business. And a lazy function of a lazy function may as well be a single one, as far as its results go.
-/
namespace Pigro.Rfc
open Demo
variable {D W E S : Type} [CxxData D]

/-- **C97.** Take two programs, and compare them variable by variable: if calling variable `i`, calling it with `nullptr`, and changing the world in between, as often and in
whatever order, gets the same from both (answers, worlds, and the events one cares for), for every `i`, then no continuation at all tells the programs apart: making lazy
functions of any depth of the variables, copying them, calling them in turns. For all functions, values and comparisons, for whatever events one cares for, and wherever the
code hands over copies or references. -/
theorem C97_context (g : Glue) (care : Ev D S → Bool) (p q : List (Op D W E S)) (w w' : W)
    (h : ∀ i (ts : List (Test W)), Looks care (run g (run g (State.init w) p).2 (ts.map (Test.on i))) (run g (run g (State.init w') q).2 (ts.map (Test.on i))))
    (ops : List (Op D W E S)) : Looks care (run g (run g (State.init w) p).2 ops) (run g (run g (State.init w') q).2 ops) := by
  obtain ⟨h1, h2⟩ := vars_of_tests g care (run_lzy g p (s := State.init w) (by simp [State.init])) (run_lzy g q (s := State.init w') (by simp [State.init])) h
  exact run_cong g care ops h1 h2

/-- For ordinary types every function respects equality. -/
theorem respects (hs : SoundNe D) (hr : ReflNe D) (ret : RetTy) (φ : List (Val D) → Val D) : Respects ret φ :=
  ⟨fun a b h => by rw [Val.ne_sound hs a b h], fun _ => Val.ne_refl hr _⟩

/-- **C98.** `lazy(f, lazy(u, deps...))` and `lazy(f after u, deps...)` cannot be told apart, in any program: where the one is written the other may be, and all answers
(results, flags, exceptions) are the same, the world, and the calls of all other functions. `u` and the dependencies are arbitrary (with effects, own state, exceptions);
`f` computes its result from its argument alone, and does not tell apart what `operator!=` does not. For the documented design, for the code without its deduction guide, and for all other combinations of copies and references but those
named in `Fuses`. -/
theorem C98_one_or_two_partial (g : Glue) (hg : Fuses g) (k : Nat) (u f : UFn D W E S) (φ : List (Val D) → Val D) (hf : Computes f φ)
    (hφ : Respects f.ret φ) (pre : List (Op D W E S)) (deps : List (ArgRef D W E S)) (ops : List (Op D W E S)) (w : W) :
    let n := (run g (State.init w) pre).2.vars.length
    Looks (callsOfOthers [k, u.id, f.id]) (run g (State.init w) (pre ++ ([.mk u deps, .mk (after k f.ret φ u) deps] ++ ops)))
      (run g (State.init w) (pre ++ ([.mk u deps, .mk f [.var n]] ++ ops))) := by
  dsimp only
  have hl := run_lzy g pre (s := State.init w) (by simp [State.init])
  have hrefl : ∀ (l : List (Obj D W E S)), CongL g (callsOfOthers [k, u.id, f.id]) l l := by
    intro l
    induction l with
    | nil => exact .nil
    | cons a l ih => exact .cons (.same a) ih
  rw [run_append, run_append, run_append, run_append]
  generalize run g (State.init w) pre = r at hl ⊢
  rcases made g r.2 u (after k f.ret φ u) f deps with ⟨ds, h1, h2⟩ | ⟨h1, h2⟩
  · rw [h1, h2]
    have key := run_cong g (callsOfOthers [k, u.id, f.id]) ops
      (s := ⟨r.2.vars ++ [lzy (.regularized u) (Cache.empty u.ret) ds] ++ [lzy (.regularized (after k f.ret φ u)) (Cache.empty f.ret) ds], r.2.env⟩)
      (t := ⟨r.2.vars ++ [lzy (.regularized u) (Cache.empty u.ret) ds] ++ [lzy (.regularized f) (Cache.empty f.ret) [lzy (.regularized u) (Cache.empty u.ret) ds]], r.2.env⟩)
      ⟨((hrefl _).snoc (.same _)).snoc (.alike (fusion_alike hg hf hφ ⟨fun _ _ => rfl, fun i hi args s s' => by
          simp only [callsOfOthers, Bool.not_eq_false', List.contains_iff_mem]; exact hi⟩
          ⟨_, _, rfl, rfl, u.st, f.st, Cache.empty f.ret, Cache.empty u.ret, ds, rfl, rfl, Cache.empty_fits _, Cache.empty_fits _, by simp [Cache.empty_val?]⟩)
          ⟨_, _, _, rfl⟩ ⟨_, _, _, rfl⟩), by
        intro a ha
        simp only [List.mem_append, List.mem_singleton] at ha
        rcases ha with (ha | rfl) | rfl
        · exact hl a ha
        · exact ⟨_, _, _, rfl⟩
        · exact ⟨_, _, _, rfl⟩⟩ ⟨rfl, rfl⟩
    exact ⟨by rw [show (after k f.ret φ u).ret = f.ret from rfl, key.1], key.2⟩
  · rw [h1, h2]
    exact ⟨rfl, rfl, rfl⟩

/-- What `load_image` computes. -/
def Demo.imageOf (vs : List (Val Int)) : Val Int := .data ((vs.map toInt).foldl (· + ·) 0 + 1000)

theorem computes_loadImage : Computes loadImage Demo.imageOf := fun s _ _ => ⟨s + 1, rfl⟩

/-- Results of a program, as numbers: what calls return, -1 for nothing; 1000000 more for "changed". -/
def Demo.seen : List (Obs Int Nat) → List (Option Int)
  | [] => []
  | .ret (.ok (some v)) :: l => some (toInt v) :: seen l
  | .polled (.ok r) :: l => some (toInt r.value + if r.isChanged then 1000000 else 0) :: seen l
  | .ret (.thrown e) :: l => some (-(e : Int)) :: seen l
  | .ret .ub :: l => none :: seen l
  | .polled .ub :: l => none :: seen l
  | _ :: l => seen l

/-- The chain of the documentation: the name of the icon depends on the drawing mode, the image on the name. With one function instead of two: the same for every program that goes on
from there, whatever it makes of the image. -/
example (ops : List (Op Int Int Nat Nat)) (w : Int) :
    Looks (callsOfOthers [77, 23, 24]) (run .retained (State.init w) ([] ++ ([.mk getName [.function getPos], .mk (after 77 .val Demo.imageOf getName) [.function getPos]] ++ ops)))
      (run .retained (State.init w) ([] ++ ([.mk getName [.function getPos], .mk loadImage [.var 0]] ++ ops))) :=
  C98_one_or_two_partial .retained (by decide) 77 getName loadImage Demo.imageOf computes_loadImage
    (respects (by intro a b; simp [CxxData.ne]) (by intro a; simp [CxxData.ne]) _ _) [] [.function getPos] ops w

/-- ... for instance: drawn at a position that changes the name, one that does not, and polled. -/
example : let ops : List (Op Int Int Nat Nat) := [.mk renderAt [.var 1, .function getPos], .call 1, .call 2, .poke (· + 1), .call 1, .poll 1, .poke (· + 2), .poll 1, .poke (· + 1), .poll 1, .call 2]
    let one := run .retained (State.init 5) ([.mk getName [.function getPos], .mk (after 77 .val Demo.imageOf getName) [.function getPos]] ++ ops)
    let two := run .retained (State.init 5) ([.mk getName [.function getPos], .mk loadImage [.var 0]] ++ ops)
    Demo.seen one.1 = Demo.seen two.1 ∧ Demo.seen one.1 = [some 1001, some 0, some 1000, some 1000, some 1000, some 1001001, some 0] := by decide +kernel

/-- `C97_context` for the two: its hypothesis is met, by programs that are not the same. -/
example (ops : List (Op Int Int Nat Nat)) (w : Int) :
    Looks (callsOfOthers [77, 23, 24]) (run .retained (run .retained (State.init w) [.mk getName [.function getPos], .mk (after 77 .val Demo.imageOf getName) [.function getPos]]).2 ops)
      (run .retained (run .retained (State.init w) [.mk getName [.function getPos], .mk loadImage [.var 0]]).2 ops) := by
  refine C97_context .retained _ _ _ w w (fun i ts => ?_) ops
  have h := C98_one_or_two_partial .retained (by decide) 77 getName loadImage Demo.imageOf computes_loadImage
    (respects (by intro a b; simp [CxxData.ne]) (by intro a; simp [CxxData.ne]) _ _) [] [.function getPos] (ts.map (Test.on i)) w
  obtain ⟨h1, h2⟩ := h
  exact ⟨(List.cons.inj (List.cons.inj h1).2).2, h2⟩

/-! ### It is exactly such glue -/

/-- Writing one function or two makes no difference, in any program. -/
def NoDifference (g : Glue) : Prop :=
  ∀ (k : Nat) (u f : UFn Int Int Nat Nat) (φ : List (Val Int) → Val Int), Computes f φ → Respects f.ret φ →
    ∀ (pre : List (Op Int Int Nat Nat)) (deps : List (ArgRef Int Int Nat Nat)) (ops : List (Op Int Int Nat Nat)) (w : Int),
      let n := (run g (State.init w) pre).2.vars.length
      Looks (callsOfOthers [k, u.id, f.id]) (run g (State.init w) (pre ++ ([.mk u deps, .mk (after k f.ret φ u) deps] ++ ops)))
        (run g (State.init w) (pre ++ ([.mk u deps, .mk f [.var n]] ++ ops)))

/-- Counts how often it runs. -/
def Demo.counts : UFn Int Int Nat Nat := ⟨⟨23, .val, fun s _ w => (.ok (.data 1), s, w + 1)⟩, 0⟩
/-- Returns nothing. -/
def Demo.nothing : UFn Int Int Nat Nat := ⟨⟨23, .void, fun s _ w => (.ok .rvoid, s, w)⟩, 0⟩

/-- Lazy functions by which a difference shows, and what is done with them. -/
def Demo.cases : List (UFn Int Int Nat Nat × List (Op Int Int Nat Nat)) := [(Demo.counts, [.call 1, .call 1]), (Demo.nothing, [.poll 1])]

/-- **C98**, when it holds: one function or two makes no difference exactly if the glue fuses. -/
theorem C98_exact (g : Glue) : NoDifference g ↔ Fuses g := by
  refine ⟨fun h => ?_, fun hg k u f φ hf hφ pre deps ops w => C98_one_or_two_partial g hg k u f φ hf hφ pre deps ops w⟩
  have h1 : ∀ c ∈ Demo.cases, let one := run g (State.init 5) ([.mk c.1 [], .mk (after 77 .val Demo.imageOf c.1) []] ++ c.2)
      let two := run g (State.init 5) ([.mk c.1 [], .mk loadImage [.var 0]] ++ c.2)
      Demo.seen one.1 = Demo.seen two.1 ∧ one.2.env.w = two.2.env.w := by
    intro c _
    obtain ⟨h1, h2, _⟩ := h 77 c.1 loadImage Demo.imageOf computes_loadImage (respects (by intro a b; simp [CxxData.ne]) (by intro a; simp [CxxData.ne]) _ _) [] [] c.2 5
    exact ⟨congrArg Demo.seen h1, h2⟩
  clear h
  obtain ⟨b1, b2, b3, b4, b5, b6, b7, b8⟩ := g
  revert h1
  revert b1 b2 b3 b4 b5 b6 b7 b8
  decide +kernel

/-- The documented design fuses, and so does the code without its deduction guide, as it evaluates everything anew; keeping the result but not the dependencies does not. -/
example : Fuses .retained ∧ Fuses { Glue.asWritten with resultByRef := false } ∧ ¬ Fuses .asWritten ∧ ¬ Fuses { Glue.retained with coreParamsByValue := true } := by decide

/-- ... the code without its deduction guide, in any program. -/
example (ops : List (Op Int Int Nat Nat)) (w : Int) :
    Looks (callsOfOthers [77, 23, 24]) (run { Glue.asWritten with resultByRef := false } (State.init w) ([] ++ ([.mk getName [.function getPos], .mk (after 77 .val Demo.imageOf getName) [.function getPos]] ++ ops)))
      (run { Glue.asWritten with resultByRef := false } (State.init w) ([] ++ ([.mk getName [.function getPos], .mk loadImage [.var 0]] ++ ops))) :=
  C98_one_or_two_partial _ (by decide) 77 getName loadImage Demo.imageOf computes_loadImage
    (respects (by intro a b; simp [CxxData.ne]) (by intro a; simp [CxxData.ne]) _ _) [] [.function getPos] ops w

/-- The pinned code hands on references to what is gone: `lazy(f, lazy(u))` is undefined behaviour as soon as it is polled, whereas the result of a single function is at least
computed. -/
theorem C98_pinned : let ops : List (Op Int Int Nat Nat) := [.poll 1]
    Demo.seen (run .asWritten (State.init 5) ([.mk getName [], .mk (after 77 .val Demo.imageOf getName) []] ++ ops)).1 = [some 1001000] ∧
    Demo.seen (run .asWritten (State.init 5) ([.mk getName [], .mk loadImage [.var 0]] ++ ops)).1 = [none] := by decide +kernel

/-- A function that looks at the world. -/
def Demo.looksAround : UFn Int Int Nat Nat := ⟨⟨24, .val, fun s vs w => (.ok (.data ((vs.map toInt).foldl (· + ·) 0 + w)), s, w)⟩, 0⟩
/-- ... after `getName`. -/
def Demo.nameAround : UFn Int Int Nat Nat := ⟨⟨77, .val, fun s vs w => (.ok (.data ((vs.map toInt).foldl (· + ·) 0 % 2 + w)), s + 1, w)⟩, 0⟩

/-- If the second function looks at the world, two functions are not the same as one: it does not run if the value of the first one is the same. -/
theorem C98_looking_around : let ops : List (Op Int Int Nat Nat) := [.call 1, .poke (· + 2), .call 1]
    Demo.seen (run .retained (State.init 5) ([.mk getName [.function getPos], .mk Demo.nameAround [.function getPos]] ++ ops)).1 = [some 6, some 8] ∧
    Demo.seen (run .retained (State.init 5) ([.mk getName [.function getPos], .mk Demo.looksAround [.var 0]] ++ ops)).1 = [some 6, some 6] := by decide +kernel

/-- Fails the first time. -/
def Demo.failsOnce : UFn Int Int Nat Nat := ⟨⟨24, .val, fun s vs w => (if s = 0 then .error 4 else .ok (.data ((vs.map toInt).foldl (· + ·) 0)), s + 1, w)⟩, 0⟩
/-- ... after counting. -/
def Demo.countsAndFails : UFn Int Int Nat Nat := ⟨⟨77, .val, fun s _ w => (if s = 0 then .error 4 else .ok (.data 1), s + 1, w + 1)⟩, 0⟩

/-- If the second function may throw, neither: the first one has been run, and is not run again. -/
theorem C98_throwing : let ops : List (Op Int Int Nat Nat) := [.call 1, .call 1]
    let one := run .retained (State.init 5) ([.mk Demo.counts [], .mk Demo.countsAndFails []] ++ ops)
    let two := run .retained (State.init 5) ([.mk Demo.counts [], .mk Demo.failsOnce [.var 0]] ++ ops)
    Demo.seen one.1 = [some (-4), some 1] ∧ Demo.seen two.1 = [some (-4), some 1] ∧ one.2.env.w = 7 ∧ two.2.env.w = 6 := by decide +kernel

end Pigro.Rfc

namespace Pigro.LM
variable {D W E S : Type} [CxxData D]

/-- C98 at memory level. -/
theorem C98_in_memory_partial (Θ : Empties D W E S) (hΘ : Stateless Θ) (moved : MV D W E S → MV D W E S) (g : Glue) (hg : Rfc.Fuses g) (k : Nat)
    (u f : UFn D W E S) (φ : List (Val D) → Val D) (hf : Rfc.Computes f φ) (hφ : Rfc.Respects f.ret φ) (pre : List (Op D W E S)) (deps : List (ArgRef D W E S))
    (ops : List (Op D W E S)) (w : W) :
    let n := (run g (State.init w) pre).2.vars.length
    let one := runMG (lang Θ moved) g (MState.init w) (pre ++ ([.mk u deps, .mk (Rfc.after k f.ret φ u) deps] ++ ops))
    let two := runMG (lang Θ moved) g (MState.init w) (pre ++ ([.mk u deps, .mk f [.var n]] ++ ops))
    one.1 = two.1 ∧ one.2.mem.world.w = two.2.mem.world.w ∧
      one.2.mem.world.log.filter (Rfc.callsOfOthers [k, u.id, f.id]) = two.2.mem.world.log.filter (Rfc.callsOfOthers [k, u.id, f.id]) := by
  intro n one two
  obtain ⟨h1, h2⟩ := C80_composed Θ hΘ moved g (.ofValue hg.1) w (pre ++ ([.mk u deps, .mk (Rfc.after k f.ret φ u) deps] ++ ops))
  obtain ⟨k1, k2⟩ := C80_composed Θ hΘ moved g (.ofValue hg.1) w (pre ++ ([.mk u deps, .mk f [.var n]] ++ ops))
  obtain ⟨l1, l2, l3⟩ := Rfc.C98_one_or_two_partial g hg k u f φ hf hφ pre deps ops w
  simp only [one, two, h1, h2, k1, k2]
  exact ⟨congrArg _ l1, l2, l3⟩

end Pigro.LM
