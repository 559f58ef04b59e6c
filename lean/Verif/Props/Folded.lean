import Verif.Proofs.Folded
import Verif.Props.Constants
/-!
# C99: all constants may as well be written into the function
-/
namespace Pigro.Rfc
open Pigro.Demo (toInt getPos renderAt)
variable {D W E S : Type} [CxxData D]

/-- **C99**, for all constants at once. In any program, where `lazy(f, deps...)` is written, all constants among the dependencies may be written into the function, however many there are,
and also if nothing else remains: all answers (results, flags, exceptions) are the same, the world, the calls of all other functions and the comparisons of results. -/
theorem C99_all_partial (g : Glue) (hg : ConstantsLive g) (h f : UFn D W E S) (pre : List (Op D W E S)) (deps : List (ArgRef D W E S)) (hs : FillsIn h f deps) (ops : List (Op D W E S)) (w : W) :
    Looks (apartFrom [h.id, f.id]) (run g (State.init w) (pre ++ ([.mk h (varying deps)] ++ ops))) (run g (State.init w) (pre ++ ([.mk f deps] ++ ops))) := by
  have hl := run_lzy g pre (s := State.init w) (by simp [State.init])
  have hrefl : ∀ (l : List (Obj D W E S)), CongL g (apartFrom [h.id, f.id]) l l := by
    intro l
    induction l with
    | nil => exact .nil
    | cons a l ih => exact .cons (.same a) ih
  have hi := hs.inserts
  have hd := insAll_varying deps
  rw [run_append, run_append, run_append, run_append]
  generalize run g (State.init w) pre = r at hl ⊢
  simp only [run]
  have hm := made_insAll g r.2 h f (places deps) (varying deps)
  rw [hd] at hm
  rcases hm with ⟨ds, hds, h1, h2⟩ | ⟨h1, h2⟩
  · rw [h1, h2]
    have key := run_cong g (apartFrom [h.id, f.id]) ops
      (s := ⟨r.2.vars ++ [lzy (.regularized h) (Cache.empty h.ret) ds], r.2.env⟩)
      (t := ⟨r.2.vars ++ [lzy (.regularized f) (Cache.empty f.ret) (insAll (places deps) constObj ds)], r.2.env⟩)
      ⟨(hrefl _).snoc (.alike (constants_alike (N := (varying deps).length) hg hi
          (by intro i hi args s s'; simp only [apartFrom, Bool.not_eq_false', List.contains_iff_mem]; exact hi)
          ⟨_, _, rfl, rfl, h.st, Cache.empty h.ret, ds, rfl, by rw [hs.1, hs.2.1], hds⟩)
          ⟨_, _, _, rfl⟩ ⟨_, _, _, rfl⟩), by
        intro a ha
        simp only [List.mem_append, List.mem_singleton] at ha
        rcases ha with ha | rfl
        · exact hl a ha
        · exact ⟨_, _, _, rfl⟩⟩ ⟨rfl, rfl⟩
    exact ⟨by rw [key.1], key.2⟩
  · rw [h1, h2]
    exact ⟨rfl, rfl, rfl⟩

omit [CxxData D] in
theorem fillIn_length : ∀ (deps : List (ArgRef D W E S)) (xs : List (Val D)), xs.length = (varying deps).length → (fillIn deps xs).length = deps.length := by
  intro deps
  induction deps with
  | nil => intro xs _; rfl
  | cons d deps ih =>
    intro xs hx
    cases d with
    | value v => simp only [varying] at hx; simp [fillIn, ih xs hx]
    | _ =>
      rcases xs with _ | ⟨x, xs⟩
      · simp [varying] at hx
      · simp only [varying, List.length_cons, Nat.add_right_cancel_iff] at hx
        simp [fillIn, ih xs hx]

omit [CxxData D] in
/-- Such a function exists: if there are at least two dependencies, and not a single one of them varies. -/
theorem filledIn_fills (k : Nat) (f : UFn D W E S) (deps : List (ArgRef D W E S)) (hv : (varying deps).length ≠ 1) (hd : deps.length ≠ 1) : FillsIn (filledIn k f deps) f deps := by
  refine ⟨rfl, rfl, fun s xs w hx => ?_⟩
  have h1 : ∀ l : List (Val D), l.length ≠ 1 → Rem.spread l = l := by
    intro l hl
    rcases l with _ | ⟨a, _ | ⟨b, l⟩⟩
    · simp [Rem.spread]
    · exact absurd rfl hl
    · exact spread_many a b l
  rw [h1 xs (hx ▸ hv), h1 _ ((fillIn_length deps xs hx).symm ▸ hd)]
  rfl

/-- Two constants, around and between what varies. -/
example (ops : List (Op Int Int Nat Nat)) (w : Int) : let deps : List (ArgRef Int Int Nat Nat) := [.value (.data 1), .function getPos, .value (.data 2), .function getPos]
    Looks (apartFrom [32, 31]) (run .retained (State.init w) ([] ++ ([.mk (filledIn 32 Demo.spriteAt deps) [.function getPos, .function getPos]] ++ ops)))
      (run .retained (State.init w) ([] ++ ([.mk Demo.spriteAt deps] ++ ops))) :=
  C99_all_partial .retained (by decide) _ Demo.spriteAt [] [.value (.data 1), .function getPos, .value (.data 2), .function getPos] (filledIn_fills 32 _ _ (by decide) (by decide)) ops w

/-- ... for instance; and with constants only. -/
example : let ops : List (Op Int Int Nat Nat) := [.call 0, .mk renderAt [.var 0, .function getPos], .poll 0, .poke (· + 2), .poll 0, .call 1, .poll 0]
    let deps : List (ArgRef Int Int Nat Nat) := [.value (.data 1), .function getPos, .value (.data 2), .function getPos]
    let only : List (ArgRef Int Int Nat Nat) := [.value (.data 1), .value (.data 2)]
    Demo.seen (run .retained (State.init 5) ([.mk Demo.spriteAt deps] ++ ops)).1 = [some 1525, some 1525, some 1001727, some 0, some 1727] ∧
    Demo.seen (run .retained (State.init 5) ([.mk (filledIn 32 Demo.spriteAt deps) (varying deps)] ++ ops)).1 = [some 1525, some 1525, some 1001727, some 0, some 1727] ∧
    Demo.seen (run .retained (State.init 5) ([.mk Demo.spriteAt only] ++ [.call 0, .poll 0])).1 = Demo.seen (run .retained (State.init 5) ([.mk (filledIn 32 Demo.spriteAt only) []] ++ [.call 0, .poll 0])).1 := by
  decide +kernel

end Pigro.Rfc

namespace Pigro.LM
variable {D W E S : Type} [CxxData D]

/-- C99 for all constants, at memory level. -/
theorem C99_all_in_memory_partial (Θ : Empties D W E S) (hΘ : Stateless Θ) (moved : MV D W E S → MV D W E S) (g : Glue) (hg : Rfc.ConstantsLive g) (hst : ConstantsStored Θ g) (h f : UFn D W E S)
    (pre : List (Op D W E S)) (deps : List (ArgRef D W E S)) (hs : Rfc.FillsIn h f deps) (ops : List (Op D W E S)) (w : W) :
    let one := runMG (lang Θ moved) g (MState.init w) (pre ++ ([.mk h (Rfc.varying deps)] ++ ops))
    let two := runMG (lang Θ moved) g (MState.init w) (pre ++ ([.mk f deps] ++ ops))
    one.1 = two.1 ∧ one.2.mem.world.w = two.2.mem.world.w ∧
      one.2.mem.world.log.filter (Rfc.apartFrom [h.id, f.id]) = two.2.mem.world.log.filter (Rfc.apartFrom [h.id, f.id]) := by
  intro one two
  obtain ⟨h1, h2⟩ := C80_composed Θ hΘ moved g hst w (pre ++ ([.mk h (Rfc.varying deps)] ++ ops))
  obtain ⟨k1, k2⟩ := C80_composed Θ hΘ moved g hst w (pre ++ ([.mk f deps] ++ ops))
  obtain ⟨l1, l2, l3⟩ := Rfc.C99_all_partial g hg h f pre deps hs ops w
  simp only [one, two, h1, h2, k1, k2]
  exact ⟨congrArg _ l1, l2, l3⟩

end Pigro.LM
