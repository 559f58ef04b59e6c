import Verif.Proofs.Convert
import Verif.Props.Refactor
/-!
# C100: results of another type than the cache

For a function of a single tuple, lazy.h:47 and lazy.h:56 may name results of two types. What is cached is converted.
-/
namespace Pigro.Cvt
open Rfc (Looks)
open Pigro.Demo (toInt)
variable {D W E S : Type} [CxxData D]

/-- **C100.** Where the results of a function are of another type than the cache, to which they are converted, programs do what they do with a function that converts its results itself: the same
results, flags and exceptions, the same world, the same invocations; if comparing a cached value with a result before its conversion (lazy.h:58) is the same as comparing it after. For all programs,
functions, conversions and comparisons, and for every glue, that of the pinned code included. -/
theorem C100_converted (Cv : Nat → Conversion D) (hC : ∀ k, Compatible (Cv k)) (g : Glue) (w : W) (ops : List (Op D W E S)) :
    Looks calls (run g Cv (State.init w) ops) (Pigro.run g (State.init w) (ops.map (Op.converting Cv))) :=
  run_conv hC g ops _ _ rfl ⟨rfl, rfl⟩

/-- Without conversions, nothing is different from `Model/Lazy.lean`. -/
theorem C100_same (g : Glue) (w : W) (ops : List (Op D W E S)) : Looks calls (run g (fun _ => .same) (State.init w) ops) (Pigro.run g (State.init w) ops) := by
  have h := C100_converted (fun _ => .same) (fun _ _ _ => rfl) g w ops
  have hid : ∀ op : Op D W E S, Op.converting (fun _ => .same) op = op := by
    intro op
    cases op with
    | mk f deps =>
      have : converting (fun _ => .same) f = f := by
        obtain ⟨⟨i, t, r⟩, st⟩ := f
        simp only [converting, UFn.mk.injEq, FnCode.mk.injEq, and_true, true_and]
        funext s vs w
        rcases h : r s vs w with ⟨_ | v, q⟩
        · rfl
        · simp [Except.map, Conversion.same]
      rw [Op.converting, this]
    | _ => rfl
  rw [show ops.map (Op.converting fun _ => .same) = ops from (List.map_congr_left fun op _ => hid op).trans (List.map_id _)] at h
  exact h

/-- No change is missed, even if the comparisons do not agree: if results that compare equal to a cached value are converted to that value, then "not changed" means that the value is the one that
was cached. -/
theorem C100_not_missed (g : Glue) (Cv : Nat → Conversion D) (f : Fun D W E S) (c : Cache D)
    (hs : ∀ a b, c = .opt (some a) → (conversion Cv f).ne a b = false → (conversion Cv f).conv b = a) (ds : List (Obj D W E S)) (env env' : Env D W S) (r : LazyRes D) (o' : Obj D W E S) (h : evalN g Cv (.core f c ds) env = (.ok r, o', env')) (hr : r.isChanged = false) :
    c.deref = some r.value := by
  rw [evalN] at h
  rcases e1 : evalDeps g Cv ds env with ⟨q, ds', x⟩
  rw [e1] at h
  cases q with
  | ok rs =>
    simp only at h
    rcases e2 : coreTail g Cv f c rs x with ⟨q, f', c', x'⟩
    rw [e2] at h
    replace h : q = .ok r := congrArg (·.1) h
    subst h
    simp only [coreTail] at e2
    split at e2
    · split at e2
      · cases e2
      · split at e2
        · rename_i res f'' y hq
          split at e2
          · rename_i v hv
            cases e2
            rcases c with (_ | u) | b
            · simp [cacheNe, Cache.ne] at hr
            · have := hs u res rfl hr
              simp only [Cache.assign, Cache.deref, Option.some.injEq] at hv ⊢
              rw [← hv, this]
            · simpa [Cache.assign, Cache.deref] using hv
          · cases e2
        · rename_i q f'' y hne hq
          cases q with
          | ok res => exact absurd rfl (hne res)
          | _ => cases e2
    · split at e2
      · rename_i v hv
        cases e2
        exact hv
      · cases e2
  | _ => cases h

/-- Tenths that are cached as integers: `f(tuple)` has type `int`, `f(elements...)` has type `double`. -/
def Demo.toWhole : Nat → Conversion Int
  | 50 => ⟨fun v => .data (toInt v / 10 * 10), fun a b => toInt a != toInt b⟩
  | _ => .same

/-- ... compared as integers. -/
def Demo.wholes : Nat → Conversion Int
  | 50 => ⟨fun v => .data (toInt v / 10 * 10), fun a b => Val.ne a (.data (toInt b / 10 * 10))⟩
  | _ => .same

/-- Two numbers, of which the first is the world. -/
def Demo.twoNumbers : UFn Int Int Nat Nat := ⟨⟨51, .val, fun s _ w => (.ok (.tup [.data w, .data 20]), s, w)⟩, 0⟩
/-- The second plus a tenth of the first. -/
def Demo.weighted : UFn Int Int Nat Nat := ⟨⟨50, .val, fun s vs w => (.ok (.data (match vs with | [a, b] => toInt a + toInt b | _ => 0)), s, w)⟩, 0⟩
/-- Counts its invocations. -/
def Demo.counting : UFn Int Int Nat Nat := ⟨⟨52, .val, fun s vs w => (.ok (.data ((vs.map toInt).foldl (· + ·) 0)), s, w + 1)⟩, 0⟩

/-- The hypothesis of `C100_converted` is met, by a function whose results are converted. -/
example (g : Glue) (ops : List (Op Int Int Nat Nat)) (w : Int) :
    Looks calls (run g Demo.wholes (State.init w) ([.mk Demo.weighted [.function Demo.twoNumbers], .mk Demo.counting [.var 0]] ++ ops))
      (Pigro.run g (State.init w) (([.mk Demo.weighted [.function Demo.twoNumbers], .mk Demo.counting [.var 0]] ++ ops : List (Op Int Int Nat Nat)).map (Op.converting Demo.wholes))) := by
  refine C100_converted _ (fun k a b => ?_) g w _
  unfold Demo.wholes
  split <;> rfl

/-- ... for instance: 2.5, 2.6, then 3.5, cached as 2, 2, 3. -/
example : let p := run .retained Demo.wholes (State.init 5) ([.mk Demo.weighted [.function Demo.twoNumbers], .mk Demo.counting [.var 0]] ++ [.call 1, .call 1, .poke (· + 9), .call 1])
    Rfc.Demo.seen p.1 = [some 20, some 20, some 30] ∧ p.2.env.w = 16 := by decide +kernel

/-- Without agreement changes are reported that are none: compared as they are, 2 and 2.5 differ each time, so that what depends on it is computed each time, from the same 2. -/
theorem C100_overreported : let ops : List (Op Int Int Nat Nat) := [.mk Demo.weighted [.function Demo.twoNumbers], .mk Demo.counting [.var 0], .call 1, .call 1, .call 1]
    let p := run .retained Demo.toWhole (State.init 5) ops
    let q := Pigro.run .retained (State.init 5) (ops.map (Op.converting Demo.toWhole))
    Rfc.Demo.seen p.1 = [some 20, some 20, some 20] ∧ p.2.env.w = 8 ∧ Rfc.Demo.seen q.1 = [some 20, some 20, some 20] ∧ q.2.env.w = 6 := by decide +kernel

/-- No change is missed there, though: the hypothesis of `C100_not_missed` is met by whatever whole number is cached. -/
example (g : Glue) (n : Int) (ds : List (Obj Int Int Nat Nat)) (env env' : Env Int Int Nat) (r : LazyRes Int) (o' : Obj Int Int Nat Nat)
    (h : evalN g Demo.toWhole (.core (.regularized Demo.weighted) (.opt (some (.data (n * 10)))) ds) env = (.ok r, o', env')) (hr : r.isChanged = false) : r.value = .data (n * 10) := by
  have := C100_not_missed g Demo.toWhole _ _ (by
    rintro a b ⟨⟩ hb
    simp only [conversion, Demo.weighted, Demo.toWhole, if_true, toInt, bne_eq_false_iff_eq] at hb ⊢
    rw [← hb]
    congr 1
    omega) ds env env' r o' h hr
  exact (Option.some.inj this).symm

end Pigro.Cvt
