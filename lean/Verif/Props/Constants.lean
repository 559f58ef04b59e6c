import Verif.Proofs.Constants
import Verif.Props.Refactor
/-!
# C99: a constant may as well be written into the function

`lazy(f, a, 3, b)` or `lazy([](auto x, auto y) { return f(x, 3, y); }, a, b)`: the constant (lazy.h:69-76) is never reported as changed, and is always the same.
-/
namespace Pigro.Rfc
open Pigro.Demo (toInt getPos renderAt)
variable {D W E S : Type} [CxxData D]

/-- **C99.** In any program, where `lazy(f, ..., v, ...)` is written, `lazy(h, ...)` may be, with `h` being `f` for the argument `v` in that place: all answers (results, flags,
exceptions) are the same, the world, the calls of all other functions and the comparisons of results. `f` and the other dependencies are arbitrary (with effects, own state,
exceptions, results that are not equal to themselves). Wherever the code hands over copies or references, unless constants dangle. -/
theorem C99_constant_partial (g : Glue) (hg : ConstantsLive g) (h f : UFn D W E S) (n : Nat) (v : Val D) (pre : List (Op D W E S)) (deps : List (ArgRef D W E S))
    (hs : Specializes h f n v deps.length) (ops : List (Op D W E S)) (w : W) :
    Looks (apartFrom [h.id, f.id]) (run g (State.init w) (pre ++ ([.mk h deps] ++ ops))) (run g (State.init w) (pre ++ ([.mk f (ins n (.value v) deps)] ++ ops))) := by
  have hl := run_lzy g pre (s := State.init w) (by simp [State.init])
  have hrefl : ∀ (l : List (Obj D W E S)), CongL g (apartFrom [h.id, f.id]) l l := by
    intro l
    induction l with
    | nil => exact .nil
    | cons a l ih => exact .cons (.same a) ih
  rw [run_append, run_append, run_append, run_append]
  generalize run g (State.init w) pre = r at hl ⊢
  simp only [run]
  rcases made_ins g r.2 h f n v deps with ⟨ds, hds, h1, h2⟩ | ⟨h1, h2⟩
  · rw [h1, h2]
    have key := run_cong g (apartFrom [h.id, f.id]) ops
      (s := ⟨r.2.vars ++ [lzy (.regularized h) (Cache.empty h.ret) ds], r.2.env⟩)
      (t := ⟨r.2.vars ++ [lzy (.regularized f) (Cache.empty f.ret) (ins n (.lazyValue v false) ds)], r.2.env⟩)
      ⟨(hrefl _).snoc (.alike (constant_alike (N := deps.length) hg hs
          (by intro i hi args s s'; simp only [apartFrom, Bool.not_eq_false', List.contains_iff_mem]; exact hi)
          ⟨_, _, rfl, rfl, h.st, Cache.empty h.ret, ds, rfl, by rw [hs.1, hs.2.1], hds⟩)
          ⟨_, _, _, rfl⟩ ⟨_, _, _, rfl⟩), by
        intro a ha
        simp only [List.mem_append, List.mem_singleton] at ha
        rcases ha with ha | rfl
        · exact hl a ha
        · exact ⟨_, _, _, rfl⟩⟩ ⟨rfl, rfl⟩
    exact ⟨by rw [key.1], key.2⟩
  · rw [h1, h2]
    exact ⟨rfl, rfl, rfl⟩

/-- The number of a sprite, and where it is: the sprite never changes, and may be written into the function. -/
def Demo.spriteAt : UFn Int Int Nat Nat := ⟨⟨31, .val, fun s vs w => (.ok (.data (vs.foldl (fun a v => 10 * a + toInt v) 0)), s + 1, w)⟩, 0⟩

/-- ... in every program, between a position and the time. -/
example (ops : List (Op Int Int Nat Nat)) (w : Int) :
    Looks (apartFrom [32, 31]) (run .retained (State.init w) ([] ++ ([.mk (given 32 Demo.spriteAt 1 (.data 3)) [.function getPos, .function getPos]] ++ ops)))
      (run .retained (State.init w) ([] ++ ([.mk Demo.spriteAt [.function getPos, .value (.data 3), .function getPos]] ++ ops))) :=
  C99_constant_partial .retained (by decide) _ Demo.spriteAt 1 (.data 3) [] [.function getPos, .function getPos] (given_specializes 32 _ _ _ 2 (by decide) (by intro h; cases h)) ops w

/-- ... for instance. -/
example : let ops : List (Op Int Int Nat Nat) := [.call 0, .mk renderAt [.var 0, .function getPos], .poll 0, .poke (· + 2), .poll 0, .call 1, .poll 0]
    let one := run .retained (State.init 5) ([.mk (given 32 Demo.spriteAt 1 (.data 3)) [.function getPos, .function getPos]] ++ ops)
    let two := run .retained (State.init 5) ([.mk Demo.spriteAt [.function getPos, .value (.data 3), .function getPos]] ++ ops)
    Demo.seen one.1 = Demo.seen two.1 ∧ Demo.seen one.1 = [some 535, some 535, some 1000737, some 0, some 737] := by decide +kernel

/-! ### Exactly if constants do not dangle -/

/-- Writing constants into the function makes no difference, in any program. -/
def ConstantsFold (g : Glue) : Prop :=
  ∀ (h f : UFn Int Int Nat Nat) (n : Nat) (v : Val Int) (pre : List (Op Int Int Nat Nat)) (deps : List (ArgRef Int Int Nat Nat)), Specializes h f n v deps.length →
    ∀ (ops : List (Op Int Int Nat Nat)) (w : Int),
      Looks (apartFrom [h.id, f.id]) (run g (State.init w) (pre ++ ([.mk h deps] ++ ops))) (run g (State.init w) (pre ++ ([.mk f (ins n (.value v) deps)] ++ ops)))

/-- **C99**, when it holds: exactly if constants do not dangle. -/
theorem C99_exact (g : Glue) : ConstantsFold g ↔ ConstantsLive g := by
  refine ⟨fun h => ?_, fun hg h f n v pre deps hs ops w => C99_constant_partial g hg h f n v pre deps hs ops w⟩
  have h1 := congrArg Demo.seen (h (given 32 Demo.spriteAt 0 (.data 3)) Demo.spriteAt 0 (.data 3) [] [] (given_specializes 32 _ _ _ 0 (by decide) fun _ => rfl) [.poll 0] 5).1
  clear h
  obtain ⟨b1, b2, b3, b4, b5, b6, b7, b8⟩ := g
  revert h1
  revert b1 b2 b3 b4 b5 b6 b7 b8
  decide +kernel

/-- The documented design, the code without its deduction guide, and the code with `value` bound by reference; not the code as it is. -/
example : ConstantsLive .retained ∧ ConstantsLive { Glue.asWritten with resultByRef := false } ∧ ConstantsLive { Glue.asWritten with valueParamByValue := false } ∧
    ¬ ConstantsLive .asWritten := by decide

/-- The pinned code: `lazy(f, 3)` is undefined behaviour as soon as it is polled, whereas the result of `f(3)` is at least computed. -/
theorem C99_pinned :
    Demo.seen (run .asWritten (State.init 5) ([.mk (given 32 Demo.spriteAt 0 (.data 3)) []] ++ [.poll 0])).1 = [some 1000003] ∧
    Demo.seen (run .asWritten (State.init 5) ([.mk Demo.spriteAt [.value (.data 3)]] ++ [.poll 0])).1 = [none] := by decide +kernel

/-- A function without arguments instead of the constant is not the same: it is called each time, and its results may be told apart from themselves (no `!=` is asked of a
constant). -/
theorem C99_not_polled : let ops : List (Op Int Int Nat Nat) := [.call 0, .call 0, .call 0]
    let f : UFn Int Int Nat Nat := ⟨⟨41, .val, fun s _ w => (.ok (.data 3), s, w + 1)⟩, 0⟩
    (run .retained (State.init 5) ([.mk Demo.spriteAt [.value (.data 3)]] ++ ops)).2.env.w = 5 ∧
    (run .retained (State.init 5) ([.mk Demo.spriteAt [.function f]] ++ ops)).2.env.w = 8 := by decide +kernel

end Pigro.Rfc

namespace Pigro.LM
variable {D W E S : Type} [CxxData D]

/-- C99 at memory level. -/
theorem C99_in_memory_partial (Θ : Empties D W E S) (hΘ : Stateless Θ) (moved : MV D W E S → MV D W E S) (g : Glue) (hg : Rfc.ConstantsLive g) (hst : ConstantsStored Θ g) (h f : UFn D W E S)
    (n : Nat) (v : Val D) (pre : List (Op D W E S)) (deps : List (ArgRef D W E S)) (hs : Rfc.Specializes h f n v deps.length) (ops : List (Op D W E S)) (w : W) :
    let one := runMG (lang Θ moved) g (MState.init w) (pre ++ ([.mk h deps] ++ ops))
    let two := runMG (lang Θ moved) g (MState.init w) (pre ++ ([.mk f (Rfc.ins n (.value v) deps)] ++ ops))
    one.1 = two.1 ∧ one.2.mem.world.w = two.2.mem.world.w ∧
      one.2.mem.world.log.filter (Rfc.apartFrom [h.id, f.id]) = two.2.mem.world.log.filter (Rfc.apartFrom [h.id, f.id]) := by
  intro one two
  obtain ⟨h1, h2⟩ := C80_composed Θ hΘ moved g hst w (pre ++ ([.mk h deps] ++ ops))
  obtain ⟨k1, k2⟩ := C80_composed Θ hΘ moved g hst w (pre ++ ([.mk f (Rfc.ins n (.value v) deps)] ++ ops))
  obtain ⟨l1, l2, l3⟩ := Rfc.C99_constant_partial g hg h f n v pre deps hs ops w
  simp only [one, two, h1, h2, k1, k2]
  exact ⟨congrArg _ l1, l2, l3⟩

end Pigro.LM
