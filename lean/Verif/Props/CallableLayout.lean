import Verif.Proofs.CallableLayout
import Verif.Props.Layout
/-!
# C65: callables made of empty callables
-/
namespace Pigro.Lay
variable {T : Type} [DecidableEq T]

/-- **C65** (emptiness, without conditions). `overload{ fs... }` is an empty class iff all callables are. -/
theorem C65_overload_empty (msvc : Bool) (fs : List (Part T)) : (overloadOf msvc fs).empty = fs.all (·.layout.empty) := by
  rw [overloadOf, overloadLayout_empty, List.all_map]; rfl

/-- **C65**: `recursive{ f }` is an empty class iff `f` is. -/
theorem C65_recursive_empty (f : Part T) : (recursiveOf f).empty = f.layout.empty := by
  rw [recursiveOf, classLayout_empty]; simp

/-- **C65**: `uncaptured(vs...) >> f` is an empty class iff all values and `f` are. -/
theorem C65_uncaptured_empty (fTag : Nat) (f : UPart T) (vs : List (UPart T)) :
    (uncaptureLayout fTag f vs).empty = (f.layout.empty && vs.all (·.layout.empty)) := by
  induction vs with
  | nil => simp [uncaptureLayout]
  | cons v vs ih =>
    have hv : (uncapturedLayout (fTag + vs.length + 1) v).empty = v.layout.empty := by
      rcases h : v.layout.empty with _ | _ <;> simp [uncapturedLayout, h, classLayout]
    rw [uncaptureLayout, classLayout_empty]
    simp only [List.all_cons, List.all_nil, Bool.and_true, hv, ih]
    rcases v.layout.empty with _ | _ <;> simp

/-- What can be said of any callable: it is an empty class, of one byte, or it has a size that is a multiple of its alignment and no tail padding in which
something else could be placed. -/
structure Callable (p : Part T) : Prop where
  nv : p.layout.nvsize = p.layout.size
  base : (p.layout.empty = true ∧ p.layout.size = 1 ∧ p.layout.align = 1 ∧ ∀ e ∈ p.layout.empties, e.2 = 0) ∨ p.layout.Proper

/-- No empty one has a class in common with what stands at the start of another. -/
def NoClash (fs : List (Part T)) : Prop :=
  fs.Pairwise fun p q => (p.layout.empty || q.layout.empty) = true → ∀ n, (n, 0) ∈ p.layout.empties → (n, 0) ∉ q.layout.empties

omit [DecidableEq T] in
theorem noClash_fits (fs : List (Part T)) (h : NoClash fs) : Fits (fs.map (·.layout)) := by
  induction fs with
  | nil => exact ⟨by simp, by simp⟩
  | cons p fs ih =>
    rw [NoClash, List.pairwise_cons] at h
    obtain ⟨i1, i2⟩ := ih h.2
    constructor
    · simp only [List.map_cons, List.filter_cons]
      split
      · rename_i hp
        rw [List.pairwise_cons]
        refine ⟨fun d hd => ?_, i1⟩
        obtain ⟨q, hq, rfl⟩ := List.mem_map.1 (List.mem_filter.1 hd).1
        exact h.1 q hq (by simp [hp])
      · exact i1
    · intro f hf d hd hde
      simp only [List.map_cons, List.find?_cons] at hf
      rcases hp : p.layout.empty with _ | _
      · simp only [hp, Bool.not_false, Option.some.injEq] at hf
        subst hf
        rcases List.mem_cons.1 hd with rfl | hd
        · rw [hde] at hp; simp at hp
        · obtain ⟨q, hq, rfl⟩ := List.mem_map.1 hd
          have := h.1 q hq (by simp [hde])
          exact ⟨fun n h1 h2 => this n h2 h1, this⟩
      · simp only [hp, Bool.not_true] at hf
        have hfm := List.mem_of_find?_eq_some hf
        rcases List.mem_cons.1 hd with rfl | hd
        · obtain ⟨q, hq, rfl⟩ := List.mem_map.1 hfm
          have := h.1 q hq (by simp [hp])
          exact ⟨this, fun n h1 h2 => this n h2 h1⟩
        · exact i2 f hf d hd hde

/-- **C65** (sizes). The size and alignment of `overload{ fs... }`, with and without the reordering of bases, are those of a struct of the non-empty
callables alone, if the classes do not clash (`NoClash`; lambdas never do, all their types being different). -/
theorem C65_overload_size (msvc : Bool) (fs : List (Part T)) (hc : ∀ p ∈ fs, Callable p) (hn : NoClash fs) :
    (overloadOf msvc fs).size = structSize (solid (fs.map (·.layout))) ∧ (overloadOf msvc fs).align = strictest (solid (fs.map (·.layout))) := by
  obtain ⟨-, h1, h2, -⟩ := overloadLayout_spec msvc none (fs.map (·.ty)) (fs.map (·.layout)) (by
    intro d hd
    obtain ⟨p, hp, rfl⟩ := List.mem_map.1 hd
    rcases (hc p hp).base with h | h
    · exact .inl h
    · exact .inr ⟨h, (hc p hp).nv⟩) (noClash_fits fs hn)
  exact ⟨h1, h2⟩

/-- **C65**: `recursive{ f }` is exactly as large as `f`, and aligned like it. -/
theorem C65_recursive_size (f : Part T) (hc : Callable f) : (recursiveOf f).size = f.layout.size ∧ (recursiveOf f).align = f.layout.align := by
  have : f.layout.Chain := by
    have hnv := hc.nv
    rcases hc.base with ⟨h1, h2, h3, -⟩ | ⟨h1, h2, h3, h4, -⟩
    · exact ⟨by omega, by omega, by rw [hnv, h2, h3]; rfl, fun _ => ⟨h2, h3⟩⟩
    · exact ⟨h3, by omega, by rw [hnv, roundUp_dvd _ _ h3 h4], fun h => by rw [h1] at h; simp at h⟩
  obtain ⟨-, h1, h2, -⟩ := classLayout_single (.recursive none [f.ty]) f.layout this
  exact ⟨h1, h2⟩

/-- **C65**: the size of `uncaptured(vs...) >> f` is that of a struct of the first value and a struct of the second and so on, and `f`, without the empty ones: the
tags keep the classes that stand for empty values apart, however many of the same type there are. If `f` is an empty class, it must not be at the start of one
of the values; and if it is itself the result of this function, with tag `fTag`, it can have used only tags up to that. -/
theorem C65_uncaptured_size (fTag : Nat) (f : UPart T) (vs : List (UPart T)) (hf : f.layout.Ok) (hft : ∀ e ∈ f.layout.empties, e.1.tag ≤ fTag)
    (hv : ∀ v ∈ vs, v.IsValue)
    (hclash : f.layout.empty = true → ∀ v ∈ vs, v.layout.empty = false → ∀ t, (.user t, 0) ∈ v.layout.empties → (.user t, 0) ∉ f.layout.empties) :
    (uncaptureLayout fTag f vs).size =
      sizeOf? ((vs.map fun v => if v.layout.empty then none else some (v.layout.size, v.layout.align)).foldr after f.layout.data) := by
  obtain ⟨h1, h2, -⟩ := uncaptureLayout_spec fTag f hf hft vs hv hclash
  rw [← h2, Layout.data]
  split
  · rename_i he; exact h1.size1 he
  · exact h1.size

/-! ### Examples -/

/-- `struct C { char c; double d; } `: 16 bytes. -/
def exCapture : Part String := ⟨"lambda [c, d]", classLayout (.user "lambda [c, d]") [] [scalar 1, scalar 8]⟩

/-- `overload{ [] {}, [c, d] {}, [] {}, [i] {} }`: 24 bytes, and `recursive` of the second 16. -/
example (msvc : Bool) : (overloadOf msvc [exEmpty "lambda 1", exCapture, exEmpty "lambda 2", exPart "lambda [i]" 4]).size = 24 ∧
    (recursiveOf exCapture).size = 16 := by
  have hC : Callable exCapture := ⟨by decide, .inr (by decide)⟩
  refine ⟨(C65_overload_size msvc _ ?_ ?_).1.trans (by decide), (C65_recursive_size _ hC).1.trans (by decide)⟩
  · intro p hp
    simp only [List.mem_cons, List.not_mem_nil, or_false] at hp
    rcases hp with rfl | rfl | rfl | rfl
    · exact ⟨by decide, .inl (by decide)⟩
    · exact hC
    · exact ⟨by decide, .inl (by decide)⟩
    · exact ⟨by decide, .inr (by decide)⟩
  · have h1 : (exEmpty "lambda 1").layout.empties = [(.user "lambda 1", 0)] := by decide
    have h2 : (exEmpty "lambda 2").layout.empties = [(.user "lambda 2", 0)] := by decide
    have h3 : exCapture.layout.empties = [] := by decide
    have h4 : (exPart "lambda [i]" 4).layout.empties = [] := by decide
    simp [NoClash, h1, h2, h3, h4]

/-- `uncaptured(E{}, F{}) >> g` is empty for empty `E`, `F`, `g`; with an `int` it is not. -/
example : let e : String → UPart String := fun n => ⟨n, classLayout (.user n) [] []⟩
    (uncaptureLayout 0 (e "g") [e "E", e "F"]).empty = true ∧ (uncaptureLayout 0 (e "g") [e "E", ⟨"int", scalar 4⟩]).empty = false := by
  refine ⟨?_, ?_⟩ <;> rw [C65_uncaptured_empty] <;> rfl

/-- `uncaptured('c', E{}, 1.0, E{}, 1) >> g` for an empty `g`: `char` at 0, the rest from 8 on: `double`, then `int`; 20 bytes, 24 with padding. -/
example : let e : String → UPart String := fun n => ⟨n, classLayout (.user n) [] []⟩
    (uncaptureLayout 0 (e "g") [⟨"char", scalar 1⟩, e "E", ⟨"double", scalar 8⟩, e "E", ⟨"int", scalar 4⟩]).size = 24 ∧
    (uncaptureLayout 0 (e "g") [e "E", e "E", e "E"]).size = 1 := by
  intro e
  have he : ∀ n, (e n).layout = ⟨1, 1, 1, true, [(.user n, 0)]⟩ := fun n => classLayout_nil _
  have hok : (e "g").layout.Ok := by rw [he]; exact ⟨by simp, by simp, by simp [roundUp], by simp⟩
  have hE : (e "E").IsValue := .inl (by rw [he])
  have hs : ∀ n k, 0 < k → (⟨n, scalar k⟩ : UPart String).IsValue := fun n k hk =>
    .inr ⟨⟨rfl, hk, hk, Nat.dvd_refl _, by simp [scalar]⟩, by simp [scalar]⟩
  constructor
  · rw [C65_uncaptured_size 0 (e "g") _ hok (by simp [he, UName.tag]) (by
      intro v hv
      simp only [List.mem_cons, List.not_mem_nil, or_false] at hv
      rcases hv with rfl | rfl | rfl | rfl | rfl
      · exact hs _ _ (by omega)
      · exact hE
      · exact hs _ _ (by omega)
      · exact hE
      · exact hs _ _ (by omega)) (by simp [he, scalar])]
    simp [he, scalar, Layout.data, after, sizeOf?, roundUp]
  · rw [C65_uncaptured_size 0 (e "g") _ hok (by simp [he, UName.tag]) (by simp [hE]) (by simp [he])]
    simp [he, Layout.data, after, sizeOf?]

/-- **C65**: the condition of `C65_overload_size` is needed. Two different empty callables with a common empty base make an `overload` of two bytes (the
two base subobjects must have different addresses), where one byte would do if they had none. -/
theorem C65_clash (msvc : Bool) : ∃ f g : Part String, Callable f ∧ Callable g ∧ f.ty ≠ g.ty ∧ f.layout.empty = true ∧ g.layout.empty = true ∧
    (overloadOf msvc [f, g]).empty = true ∧ (overloadOf msvc [f, g]).size = 2 :=
  ⟨⟨"F", classLayout (.user "F") [classLayout (.user "E") [] []] []⟩, ⟨"G", classLayout (.user "G") [classLayout (.user "E") [] []] []⟩,
    ⟨by decide, .inl (by decide)⟩, ⟨by decide, .inl (by decide)⟩, by decide, by decide, by decide, by cases msvc <;> decide, by cases msvc <;> decide⟩

end Pigro.Lay
