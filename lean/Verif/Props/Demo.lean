import Verif.Spec.Eager
/-!
# Concrete data for the examples beside the theorems

Integers as user data, a world of one integer, exceptions `Nat`, own state of callables `Nat`.
-/
namespace Pigro.Demo

instance : CxxData Int := ⟨fun a b => a != b, 0⟩

abbrev F := UFn Int Int Nat Nat
abbrev V := Val Int
abbrev P := Op Int Int Nat Nat
abbrev T := Tree Int Int Nat Nat
abbrev A := ArgRef Int Int Nat Nat

/-- Reads the world; counts its own invocations. -/
def rd : F := ⟨⟨1, .val, fun s _ w => (.ok (.data w), s + 1, w)⟩, 0⟩

/-- Half of the world, rounded: many worlds, same value. -/
def half : F := ⟨⟨2, .val, fun s _ w => (.ok (.data (w / 2)), s + 1, w)⟩, 0⟩

def toInt : V → Int
  | .data n => n
  | _ => 0

/-- Sum of its arguments. -/
def sum : F := ⟨⟨3, .val, fun s vs w => (.ok (.data ((vs.map toInt).foldl (· + ·) 0)), s + 1, w)⟩, 0⟩

/-- Half of its first argument. -/
def halfArg : F := ⟨⟨4, .val, fun s vs w =>
  (.ok (.data ((vs.map toInt).foldl (· + ·) 0 / 2)), s + 1, w)⟩, 0⟩

/-- A `void` function. -/
def proc : F := ⟨⟨5, .void, fun s _ w => (.ok .rvoid, s + 1, w)⟩, 0⟩

/-- Sum of its arguments; throws iff it is negative. -/
def picky : F := ⟨⟨6, .val, fun s vs w =>
  (if (vs.map toInt).foldl (· + ·) 0 < 0 then .error 7
    else .ok (.data ((vs.map toInt).foldl (· + ·) 0)), s + 1, w)⟩, 0⟩

/-- Plain function that throws in odd worlds. -/
def odd : F := ⟨⟨8, .val, fun s _ w => (if w % 2 = 1 then .error 9 else .ok (.data w), s + 1, w)⟩, 0⟩

/-- Plain function that throws in odd worlds, and else returns 0. -/
def oddZero : F :=
  ⟨⟨9, .val, fun s _ w => (if w % 2 = 1 then .error 9 else .ok (.data 0), s + 1, w)⟩, 0⟩

/-- Counts how often it was called: an impure function. -/
def tick : F := ⟨⟨10, .val, fun s _ w => (.ok (.data s), s + 1, w)⟩, 0⟩

/-- Number of its arguments. -/
def count : F := ⟨⟨11, .val, fun s vs w => (.ok (.data vs.length), s + 1, w)⟩, 0⟩

/-- Returns the world and increments it. -/
def inc : F := ⟨⟨12, .val, fun s _ w => (.ok (.data w), s + 1, w + 1)⟩, 0⟩

/-- The meaning of functions that do not look at their own state and (as wrapped functions) not at
the world. -/
def canon : Meaning Int Int Nat Nat Int where
  obs := id
  fn c args := match (c.run 0 args 0).1 with
    | .ok v => v
    | .error _ => .rvoid
  leaf c o := match (c.run 0 [] o).1 with
    | .ok v => v
    | .error _ => .rvoid

theorem soundNe : SoundNe Int := by
  intro a b h
  simpa [CxxData.ne] using h

theorem reflNe : ReflNe Int := by
  intro a
  simp [CxxData.ne]

theorem rd_ok : canon.LeafOk rd.toFnCode := by intro s w; exact ⟨rfl, rfl⟩
theorem half_ok : canon.LeafOk half.toFnCode := by intro s w; exact ⟨rfl, rfl⟩
theorem sum_ok : canon.FnOk sum.toFnCode := by intro s a w; exact ⟨rfl, rfl⟩
theorem halfArg_ok : canon.FnOk halfArg.toFnCode := by intro s a w; exact ⟨rfl, rfl⟩
theorem proc_ok : canon.FnOk proc.toFnCode := by intro s a w; exact ⟨rfl, rfl⟩

/-- `x = lazy(halfArg, rd); y = lazy(sum, x, 10, half)`: nested, with all three kinds of dependency. -/
def nested : List P :=
  [.mk halfArg [.function rd], .mk sum [.var 0, .value (.data 10), .function half]]

def xT : T := .lazy halfArg.toFnCode [.function rd.toFnCode]
def yT : T := .lazy sum.toFnCode [xT, .value (.data 10), .function half.toFnCode]

theorem nested_trees : runTrees [] nested = [xT, yT] := rfl

theorem not_tup (c : FnCode Int Int Nat Nat) (h : ∀ o vs, canon.leaf c o ≠ .tup vs) :
    ∀ o vs, canon.eager o (.function c) ≠ .tup vs := by
  intro o vs
  rw [Meaning.eager]
  cases hr : c.ret <;> simp [RetTy.regularize, h]

theorem xT_ok (g : Glue) (hg : g.SafeFor xT) : TreeOk g canon xT := by
  refine ⟨.lazy _ _ halfArg_ok ?_, .lazy _ _ ?_ ?_, hg⟩
  · intro t ht; simp at ht; subst ht; exact .function _ rd_ok
  · intro t ht o vs
    simp at ht; subst ht
    exact not_tup _ (by intro o vs h; cases h) o vs
  · intro t ht; simp at ht; subst ht; exact .function _

theorem yT_ok (g : Glue) (hg : g.SafeFor xT) (hy : g.SafeFor yT) : TreeOk g canon yT := by
  refine ⟨.lazy _ _ sum_ok ?_, .lazy _ _ ?_ ?_, hy⟩
  · intro t ht
    simp at ht
    rcases ht with rfl | rfl | rfl
    · exact (xT_ok g hg).1
    · exact .value _
    · exact .function _ half_ok
  · intro t ht; simp at ht
  · intro t ht
    simp at ht
    rcases ht with rfl | rfl | rfl
    · exact (xT_ok g hg).2.1
    · exact .value _
    · exact .function _

theorem yT_nodup : yT.postIds.Nodup := by
  simp [yT, xT, Tree.postIds, sum, halfArg, rd, half]

theorem nested_ok : ∀ t ∈ runTrees [] nested, TreeOk Glue.retained canon t := by
  intro t ht
  rw [nested_trees] at ht
  simp at ht
  rcases ht with rfl | rfl
  · exact xT_ok _ (.inl rfl)
  · exact yT_ok _ (.inl rfl) (.inl rfl)

/-- Copies everywhere, but results are values: defined behaviour, nothing cached. -/
def copying : Glue := { Glue.asWritten with resultByRef := false }

/-- Only the by-value parameters of `detail::lazy` are left. -/
def halfFixed : Glue := { Glue.retained with coreParamsByValue := true }

end Pigro.Demo
