import Verif.Proofs.MsLayout
/-!
# C86: sizes with the Microsoft compiler
-/
namespace Pigro.Ms
open Lay (roundUp LTree Foot structOf)
variable {U : Type}

/-- An element, callable or value of any type: an empty class (of whatever bases), or something with a size that is a multiple of its alignment. -/
abbrev AnyType (d : Layout) : Prop := d.empty = true ∨ d.Proper

/-- A callable that may be a base class: an empty class without alignment of its own and not made larger by its base classes, or something that is not empty. (Any lambda, and all
objects made by `>>`, `<<`, `recursive`, `overload`, `compressed_tuple` of such.) -/
abbrev Callable (d : Layout) : Prop := (d.empty = true ∧ d.size = 1 ∧ d.nv = 0 ∧ d.align = 1) ∨ (d.Proper ∧ d.nv = d.size)

theorem Callable.good {d : Layout} (h : Callable d) : Good d := by
  rcases h with ⟨h1, h2, h3, h4⟩ | ⟨h1, h2⟩
  · exact .inl ⟨h1, h2, h3, h4⟩
  · exact .inr ⟨h1, h2⟩

theorem Good.callable {d : Layout} (h : Good d) : Callable d := by
  rcases h with h | h
  · exact .inl ⟨h.empty, h.size, h.nv, h.align⟩
  · exact .inr ⟨h.proper, h.nv⟩

/-- From what an object takes to `sizeof`. -/
theorem Good.size_foot {d : Layout} (h : Good d) : d.size = d.foot.size := by
  rcases h with h | h
  · rw [foot_eq_none.2 h.empty, h.size]; rfl
  · rw [Layout.foot, h.proper.1]; rfl

/-- **C86**, tuples. A `compressed_tuple` of any types takes what a struct of the non-empty ones takes. No type can clash with another, unlike with the other compilers (`C32_clash`). -/
theorem C86_tuple_size (ds : List Layout) (h : ∀ d ∈ ds, AnyType d) :
    (tuple true ds).size = (structOf (ds.map Layout.foot)).size ∧ (tuple true ds).foot = structOf (ds.map Layout.foot) ∧ Callable (tuple true ds) := by
  obtain ⟨h1, h2⟩ := tuple_spec ds h
  exact ⟨by rw [h1.size_foot, h2], h2, h1.callable⟩

/-- `compressed_tuple<char, E, double, E, int>`: 24 bytes; `compressed_tuple<E, E>`: 1. `E` is any empty class, the second time one of two bytes. -/
example : (tuple true [scalar 1, lam, scalar 8, classLayout false [lam, lam, lam] [], scalar 4]).size = 24 ∧ (tuple true [lam, lam]).size = 1 :=
  ⟨(C86_tuple_size _ (by decide)).1, (C86_tuple_size _ (by decide)).1⟩

/-- **C86**, binders: `t >> f` and `t << f` take what a struct of callable and tuple takes. -/
theorem C86_bound_size (f t : Layout) (hf : AnyType f) (ht : AnyType t) :
    (bound true f t).size = (structOf [f.foot, t.foot]).size ∧ (bound true f t).foot = structOf [f.foot, t.foot] ∧ Callable (bound true f t) := by
  obtain ⟨h1, h2⟩ := bound_spec hf ht
  exact ⟨by rw [h1.size_foot, h2], h2, h1.callable⟩

/-- `compressed_tuple{ f, 5 } >> f` for a lambda `f` without captures: 4 bytes. (8 with other compilers, `C32_clash`.) -/
example : (bound true lam (tuple true [lam, scalar 4])).size = 4 := by
  have ht := C86_tuple_size [lam, scalar 4] (by decide)
  rw [(C86_bound_size lam (tuple true [lam, scalar 4]) (by decide) (by decide)).1, ht.2.1]
  decide

/-- **C86**, `overload` and `recursive`. -/
theorem C86_overload_size (fs : List Layout) (h : ∀ d ∈ fs, Callable d) :
    (overload true fs).size = (structOf (fs.map Layout.foot)).size ∧ (overload true fs).foot = structOf (fs.map Layout.foot) ∧ Callable (overload true fs) ∧
    ∀ f ∈ fs, (recursive f).size = f.size ∧ (recursive f).align = f.align ∧ Callable (recursive f) := by
  obtain ⟨h1, h2⟩ := overload_spec fs (fun d hd => (h d hd).good)
  refine ⟨by rw [h1.size_foot, h2], h2, h1.callable, fun f hf => ?_⟩
  obtain ⟨r1, r2⟩ := class_one false (h f hf).good
  refine ⟨?_, ?_, r1.callable⟩
  · rw [recursive, r1.size_foot, r2, ← (h f hf).good.size_foot]
  · rcases h f hf with ⟨h1, -, -, h4⟩ | ⟨h1, -⟩
    · rw [← foot_eq_none, ← r2, foot_eq_none] at h1
      rcases r1 with r1 | r1
      · rw [recursive, r1.align, h4]
      · rw [r1.proper.1] at h1; simp at h1
    · have hf2 : f.foot = some (f.size, f.align) := by rw [Layout.foot, h1.1]; rfl
      rw [hf2, Layout.foot] at r2
      split at r2
      · simp at r2
      · simp only [Option.some.injEq, Prod.mk.injEq] at r2
        exact r2.2

/-- `overload{ [] {}, [c, d] {}, [] {}, [i] {} }` of `char`, `double` and `int`: 24 bytes. -/
example : (overload true [lam, lamOf [scalar 1, scalar 8], lam, lamOf [scalar 4]]).size = 24 := (C86_overload_size _ (by decide)).1

/-- The condition on callables is needed: an empty class that is larger for its base classes takes its bytes in an `overload`. -/
theorem C86_overload_large_empty : ∃ f g : Layout, f.empty = true ∧ g.empty = true ∧ (overload true [f, g]).empty = true ∧ (overload true [f, lamOf [scalar 1]]).size = 2 ∧
    (overload true [f, g, f, f]).size = 3 ∧
    (structOf [f.foot, (lamOf [scalar 1]).foot]).size = 1 := ⟨classLayout false [lam, lam] [], lam, by decide⟩

/-- **C86**, lazy functions, exact: whatever the types, the captures, and the tree of dependencies, a lazy function takes what a struct of its cache, its captures and its
dependencies takes, where each plain function in the tree comes with an `int`. As C55, and with no assumption on the types of the user at all. -/
theorem C86_lazy_size {Γ : Types U} (h : Γ.Plain) (f : U) (res : Option U) (deps : List (LTree U)) :
    let want := LTree.foot (fun u => (Γ.layout u).foot) (fun u => (Γ.optional u).foot) (some (4, 4)) (.lazy f res deps)
    some ((dep Γ (.lazy f res deps)).size, (dep Γ (.lazy f res deps)).align) = want ∧ (dep Γ (.lazy f res deps)).size = want.size := by
  have h2 := (dep_spec h (.lazy f res deps)).2
  have hne : (LTree.foot (fun u => (Γ.layout u).foot) (fun u => (Γ.optional u).foot) (some (4, 4)) (.lazy f res deps)) ≠ none := by
    obtain ⟨hp, hc⟩ := h.cache res
    rw [LTree.foot, ← hc, Layout.foot, hp.1]
    simp [structOf]
  intro want
  change want ≠ none at hne
  change (dep Γ (.lazy f res deps)).foot = want at h2
  generalize dep Γ (.lazy f res deps) = d at h2 ⊢
  clear_value want
  subst h2
  have he : d.empty = false := by
    rw [Bool.eq_false_iff]
    exact fun he => hne (foot_eq_none.2 he)
  simp [Layout.foot, he, Foot.size]

/-- Types of a user: `int`; a lambda without captures, with an `int`, with a reference; `std::string` (32 bytes). -/
inductive ExU where
  | int | lam0 | lamInt | lamRef | string

def exTypes : Types ExU where
  layout
    | .int => scalar 4
    | .lam0 => lam
    | .lamInt => lamOf [scalar 4]
    | .lamRef => lamOf [scalar 8]
    | .string => ⟨32, 32, 8, false, false, false⟩
  optional
    | .int => ⟨8, 8, 4, false, false, false⟩
    | .lam0 => ⟨2, 2, 1, false, false, false⟩
    | .lamInt => ⟨8, 8, 4, false, false, false⟩
    | .lamRef => ⟨16, 16, 8, false, false, false⟩
    | .string => ⟨40, 40, 8, false, false, false⟩

theorem exTypes_plain : exTypes.Plain where
  layout u := by cases u <;> decide
  optional u := by cases u <;> decide

/-- The test "memory_footprint" (tests/lazy.test.cpp:191-228): `f1` to `f5`, `f10` as it expects; `f7`, `f8`, `f9`, which have a plain function as dependency, larger (it expects 16,
20, 24). -/
example : let size (t : LTree ExU) := (dep exTypes t).size
    size (.lazy .lam0 none []) = 1 ∧ size (.lazy .lam0 (some .int) []) = 8 ∧ size (.lazy .lamInt (some .int) []) = 12 ∧ size (.lazy .lamRef (some .int) []) = 16 ∧
    size (.lazy .lam0 (some .int) [.value .int]) = 12 ∧ size (.lazy .lam0 (some .int) [.lazy .lam0 (some .int) []]) = 16 ∧
    size (.lazy .lam0 (some .int) [.function .lam0 .int]) = 20 ∧ size (.lazy .lam0 (some .int) [.function .lamInt .int]) = 24 ∧
    size (.lazy .lam0 (some .int) [.function .lamRef .int]) = 32 :=
  ⟨(C86_lazy_size exTypes_plain _ _ _).2, (C86_lazy_size exTypes_plain _ _ _).2, (C86_lazy_size exTypes_plain _ _ _).2, (C86_lazy_size exTypes_plain _ _ _).2,
    (C86_lazy_size exTypes_plain _ _ _).2, (C86_lazy_size exTypes_plain _ _ _).2, (C86_lazy_size exTypes_plain _ _ _).2, (C86_lazy_size exTypes_plain _ _ _).2,
    (C86_lazy_size exTypes_plain _ _ _).2⟩

/-- **C86**: the declarations in overload.h (`__declspec(empty_bases)`) are needed. Without them a tuple of two empty types and an `int` takes 8 bytes, and so does an `int`
bound to a lambda without captures. -/
theorem C86_declarations_needed :
    (tuple false [lam, lam, scalar 4]).size = 8 ∧ (tuple true [lam, lam, scalar 4]).size = 4 ∧
    (bound false lam (tuple false [scalar 4])).size = 8 ∧ (bound true lam (tuple true [scalar 4])).size = 4 := by decide

/-! ### uncapture.h -/

/-- C86 for `uncaptured(vs...) >> f` in full: it takes what a struct of the first value and a struct of the second and so on, and `f`, takes, without the empty ones. True if nowhere two
things of size zero follow one another (`Separated`); what is missing is the other case, see `C86_uncaptured_bytes`. -/
theorem C86_uncaptured_size_partial (f : Layout) (vs : List Layout) (hf : Callable f) (hv : ∀ v ∈ vs, AnyType v) (hs : Separated f vs) :
    (uncapture false f vs).size = (vs.foldr (fun v r => structOf [v.foot, r]) f.foot).size := by
  obtain ⟨h1, h2, -⟩ := uncapture_leads f hf.good vs hv hs
  rw [h1.size_foot, h2]

/-- `uncaptured('c', E{}, 1.0) >> f` for a lambda `f` without captures: 16 bytes. -/
example : (uncapture false lam [scalar 1, lam, scalar 8]).size = 16 :=
  (C86_uncaptured_size_partial _ _ (by decide) (by decide) (by simp only [Separated, begins]; decide)).trans (by decide)

/-- **C86 is false** for uncapture.h: with values of empty types and a callable of empty type, it takes a byte for each value. (`CompressedInvocable` is not declared with
`__declspec(empty_bases)`.) A struct of them takes 1. -/
theorem C86_uncaptured_bytes (f : Layout) (vs : List Layout) (hf : f.empty = true ∧ f.size = 1 ∧ f.nv = 0 ∧ f.align = 1 ∧ f.leads = true) (hv : ∀ v ∈ vs, v.empty = true) (hne : vs ≠ []) :
    (uncapture false f vs).size = vs.length ∧ (uncapture false f vs).empty = true ∧ (vs.foldr (fun v r => structOf [v.foot, r]) f.foot).size = 1 := by
  rcases vs with _ | ⟨v, vs⟩
  · exact absurd rfl hne
  · obtain ⟨h1, h2, h3, h4, h5⟩ := hf
    have h := uncapture_empties ⟨h1, h2, h3, h4⟩ h5 v vs (hv v (by simp)) (fun w hw => hv w (by simp [hw]))
    refine ⟨by rw [h]; rfl, by rw [h], ?_⟩
    have : ∀ ws : List Layout, (∀ w ∈ ws, w.empty = true) → ws.foldr (fun v r => structOf [v.foot, r]) f.foot = none := by
      intro ws
      induction ws with
      | nil => intro _; exact foot_eq_none.2 h1
      | cons w ws ih =>
        intro hw
        rw [List.foldr_cons, ih (fun x hx => hw x (by simp [hx])), foot_eq_none.2 (hw w (by simp))]; rfl
    rw [this _ hv]; rfl

/-- Three bytes where one would do; and with an `int` in the callable 8 instead of 4. -/
example : (uncapture false lam [lam, lam, lam]).size = 3 ∧ (uncapture false (lamOf [scalar 4]) [lam, lam]).size = 8 :=
  ⟨(C86_uncaptured_bytes lam [lam, lam, lam] (by decide) (by decide) (by decide)).1, by decide⟩

/-- **C86**: the missing declaration is all there is to it. With it, it would be true without conditions on the order. -/
theorem C86_uncaptured_declared (f : Layout) (vs : List Layout) (hf : Callable f) (hv : ∀ v ∈ vs, AnyType v) :
    (uncapture true f vs).size = (vs.foldr (fun v r => structOf [v.foot, r]) f.foot).size ∧ Callable (uncapture true f vs) := by
  obtain ⟨h1, h2⟩ := uncapture_ebo f hf.good vs hv
  exact ⟨by rw [h1.size_foot, h2], h1.callable⟩

example : (uncapture true lam [lam, lam, lam]).size = 1 ∧ (uncapture true (lamOf [scalar 4]) [lam, lam]).size = 4 :=
  ⟨(C86_uncaptured_declared lam [lam, lam, lam] (by decide) (by decide)).1, (C86_uncaptured_declared _ [lam, lam] (by decide) (by decide)).1⟩

/-! ### empty_object.h -/

/-- **C86**, `empty_object<T>::get()` for an empty class `T`: the address it reads from is that of the base class `T` of a `T2` in the storage iff `T` takes no space as a base class; the object
read lies within the storage iff it takes at most one byte. -/
theorem C86_empty_object (t : Layout) (hs : t.size = max t.nv 1) (ha : t.align = 1) (a : Nat) :
    (getAddress t a = a + t2Base t ↔ t.nv = 0) ∧ (getAddress t a + t.size ≤ a + storageSize t ↔ t.nv ≤ 1) := by
  have hb : t2Base t = 0 := by simp [t2Base, baseOffset, Progress.start, roundUp, ha]
  have hm : t2Member t = t.nv := by simp [t2Member, memberOffset, placeBase, baseOffset, Progress.start, roundUp, ha, scalar]
  have hst : storageSize t = t.nv + 1 := by
    simp [storageSize, t2, classLayout, placeBase, placeMember, memberOffset, baseOffset, Progress.start, roundUp, ha, scalar]
  simp only [getAddress, hb, hm, hst]
  omega

/-- The result of `uncaptured(E{}, E{}) >> f` is of an empty class, and is taken for one by `compressed_tuple`; making it anew by `empty_object` reads an object two bytes beyond the start
of a storage of three bytes, of which it takes two. For a lambda without captures it is as intended. -/
theorem C86_empty_object_outside : let t := uncapture false lam [lam, lam]
    t.empty = true ∧ storageSize t = 3 ∧ ∀ a, getAddress t a = a + 2 ∧ ¬ getAddress t a + t.size ≤ a + storageSize t ∧ getAddress lam a = a := by
  refine ⟨by decide, by decide, fun a => ⟨?_, ?_, ?_⟩⟩
  · have : t2Member (uncapture false lam [lam, lam]) = 2 ∧ t2Base (uncapture false lam [lam, lam]) = 0 := by decide
    simp only [getAddress, this]
  · rw [(C86_empty_object (uncapture false lam [lam, lam]) (by decide) (by decide) a).2]; decide
  · have := (C86_empty_object lam (by decide) (by decide) a).1.2 (by decide)
    rw [this]; rfl

end Pigro.Ms
