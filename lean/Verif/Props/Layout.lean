import Verif.Proofs.LayoutDistinct
/-!
# C32: sizes
-/
namespace Pigro.Lay
variable {T N : Type} [DecidableEq T]

/-- **C32**: a `compressed_tuple` is an empty class iff all its elements are. -/
theorem C32_tuple_empty (msvc : Bool) (parts : List (Part T)) :
    (tupleLayout msvc parts).empty = parts.all (·.layout.empty) := tupleLayout_empty msvc parts

/-- **C32**: a bound callable is an empty class iff callable and tuple are. -/
theorem C32_bound_empty (msvc back : Bool) (f t : Part T) :
    (boundLayout msvc back f t).empty = (f.layout.empty && t.layout.empty) := boundLayout_empty msvc back f t

/-- **C32** (partial: only if types do not clash, see `C32_clash`). The size of a `compressed_tuple` is that of a struct of its non-empty elements alone,
and so is its alignment, wherever the empty ones stand. `hclash`: at the start of the first non-empty element there is no subobject of the class
that stands for one of the empty elements here. (`hown`: no type contains a closure whose type depends on it.) -/
theorem C32_size_partial (msvc : Bool) (parts : List (Part T)) (hp : ∀ p ∈ parts, p.layout.empty = true ∨ p.layout.Proper)
    (hown : ∀ (i : Nat) (p : Part T), parts[i]? = some p → (.constGet i p.ty, 0) ∉ p.layout.empties)
    (hclash : ∀ f, parts.find? (! ·.layout.empty) = some f → ∀ (i : Nat) (q : Part T), parts[i]? = some q → q.layout.empty = true →
      (.emptyElem i q.ty, 0) ∉ f.layout.empties) :
    let c := tupleLayout msvc parts
    c.size = structSize (solid (parts.map (·.layout))) ∧ c.align = strictest (solid (parts.map (·.layout))) ∧
    (c.empty = true ∨ c.Proper) := by
  obtain ⟨h1, h2, h3, -⟩ := tupleLayout_spec msvc parts hp hown hclash
  exact ⟨h1, h2, h3⟩

/-- **C32** (partial in the same way): the size of `t >> f` and `t << f` is that of a struct of callable and tuple without the empty ones. -/
theorem C32_bound_size_partial (msvc back : Bool) (f t : Part T) (hf : f.layout.empty = true ∨ f.layout.Proper)
    (ht : t.layout.empty = true ∨ t.layout.Proper) (hownf : (.constGet 0 f.ty, 0) ∉ f.layout.empties)
    (hownt : (.constGet 1 t.ty, 0) ∉ t.layout.empties)
    (hclash : ∀ d, [f, t].find? (! ·.layout.empty) = some d → (.generic back f.ty t.ty, 0) ∉ d.layout.empties ∧
      (f.layout.empty = true → (.emptyElem 0 f.ty, 0) ∉ d.layout.empties) ∧
      (t.layout.empty = true → (.emptyElem 1 t.ty, 0) ∉ d.layout.empties)) :
    let c := boundLayout msvc back f t
    c.size = structSize (solid [f.layout, t.layout]) ∧ c.align = strictest (solid [f.layout, t.layout]) := by
  obtain ⟨h1, h2, -⟩ := boundLayout_spec msvc back f t hf ht hownf hownt hclash
  exact ⟨h1, h2⟩

/-- **C32** for elements that themselves contain no `compressed_tuple` or bound callable. -/
theorem C32_size_plain (msvc : Bool) (parts : List (Part T)) (hp : ∀ p ∈ parts, p.layout.empty = true ∨ p.layout.Proper)
    (hplain : ∀ p ∈ parts, ∀ e ∈ p.layout.empties, ∃ t, e.1 = .user t) :
    (tupleLayout msvc parts).size = structSize (solid (parts.map (·.layout))) ∧
    (tupleLayout msvc parts).align = strictest (solid (parts.map (·.layout))) := by
  have h := C32_size_partial msvc parts hp (by
    intro i p hi h
    obtain ⟨t, ht⟩ := hplain p (List.mem_of_getElem? hi) _ h
    simp at ht) (by
    intro f hf i q _ _ h
    obtain ⟨t, ht⟩ := hplain f (List.mem_of_find?_eq_some hf) _ h
    simp at ht)
  exact ⟨h.1, h.2.1⟩

/-- **C32**: no two subobjects of the same empty class have the same address, neither in a tuple nor in a bound callable, if none have in the parts:
the classes that stand for elements can be told apart. No condition on sizes, types or clashes. -/
theorem C32_addresses (msvc back : Bool) (parts : List (Part T)) (f t : Part T)
    (hp : ∀ p ∈ f :: t :: parts, p.layout.empties.Nodup ∧ 0 < p.layout.align) :
    (tupleLayout msvc parts).empties.Nodup ∧ (boundLayout msvc back f t).empties.Nodup := by
  constructor
  · obtain ⟨h1, h2⟩ := overloadLayout_distinct msvc none (parts.map (·.ty)) (parts.zipIdx.map fun p => elementLayout p.2 p.1) (by
        intro d hd
        obtain ⟨q, hq, rfl⟩ := List.mem_map.1 hd
        exact elementLayout_distinct _ _ (hp _ (by simp [List.fst_mem_of_mem_zipIdx hq]))) (by
        intro hall d hd e he
        have hd' := hall d hd
        obtain ⟨q, hq, rfl⟩ := List.mem_map.1 hd
        rw [elementLayout_empty_names _ _ hd' e he]
        simp)
    have hnone : ∀ d : Layout (Name T), d ∈ (parts.zipIdx.map fun p => elementLayout p.2 p.1) → d.empty = true →
        ∀ e ∈ d.empties, ∃ i ty, e.1 = .emptyElem i ty := by
      intro d hd hd' e he
      obtain ⟨q, hq, rfl⟩ := List.mem_map.1 hd
      exact ⟨_, _, elementLayout_empty_names _ _ hd' e he⟩
    have hr : (classLayout (.recursive none (parts.map (·.ty)))
        [overloadLayout msvc none (parts.map (·.ty)) (parts.zipIdx.map fun p => elementLayout p.2 p.1)] []).Distinct := by
      refine classLayout_distinct _ _ _ (by simpa using h1) (by simp) ?_
      intro hemp d hd e he
      rw [List.mem_singleton] at hd
      subst hd
      simp only [classLayout_empty, List.all_cons, List.all_nil, Bool.and_true, overloadLayout_empty, List.all_eq_true] at hemp
      rcases h2 e he with h | h | ⟨d, hd, e', he', h⟩
      · rw [h]; simp
      · rw [h]; simp
      · obtain ⟨i, ty, h'⟩ := hnone d hd (hemp d hd) e' he'
        rw [← h, h']; simp
    refine (classLayout_distinct _ _ _ (by simpa using hr) (by simp) ?_).1
    intro hemp d hd e he
    rw [List.mem_singleton] at hd
    subst hd
    simp only [classLayout_empty, List.all_cons, List.all_nil, Bool.and_true, overloadLayout_empty, List.all_eq_true] at hemp
    rcases classLayout_from_bases _ _ e he with h | ⟨d, hd, e1, he1, h⟩
    · rw [h]; simp
    · rw [List.mem_singleton] at hd
      subst hd
      rw [← h]
      rcases h2 e1 he1 with h | h | ⟨d, hd, e', he', h⟩
      · rw [h]; simp
      · rw [h]; simp
      · obtain ⟨i, ty, h'⟩ := hnone d hd (hemp d hd) e' he'
        rw [← h, h']; simp
  · have hnone : ∀ d ∈ [elementLayout 0 f, elementLayout 1 t, classLayout (.generic back f.ty t.ty) [] []], d.empty = true →
        ∀ e ∈ d.empties, (∃ i ty, e.1 = Name.emptyElem i ty) ∨ e.1 = .generic back f.ty t.ty := by
      intro d hd hd' e he
      simp only [List.mem_cons, List.not_mem_nil, or_false] at hd
      rcases hd with rfl | rfl | rfl
      · exact .inl ⟨_, _, elementLayout_empty_names _ _ hd' e he⟩
      · exact .inl ⟨_, _, elementLayout_empty_names _ _ hd' e he⟩
      · rw [classLayout_nil, List.mem_singleton] at he
        exact .inr (by rw [he])
    obtain ⟨h1, h2⟩ := overloadLayout_distinct msvc (some back) [f.ty, t.ty]
      [elementLayout 0 f, elementLayout 1 t, classLayout (.generic back f.ty t.ty) [] []] (by
        intro d hd
        simp only [List.mem_cons, List.not_mem_nil, or_false] at hd
        rcases hd with rfl | rfl | rfl
        · exact elementLayout_distinct _ _ (hp _ (by simp))
        · exact elementLayout_distinct _ _ (hp _ (by simp))
        · exact classLayout_distinct _ _ _ (by simp) (by simp) (by simp)) (by
        intro hall d hd e he
        rcases hnone d hd (hall d hd) e he with ⟨i, ty, h⟩ | h <;> rw [h] <;> simp)
    refine (classLayout_distinct _ _ _ (by simpa using h1) (by simp) ?_).1
    intro hemp d hd e he
    rw [List.mem_singleton] at hd
    subst hd
    rw [classLayout_empty, List.all_cons, List.all_nil, Bool.and_true, overloadLayout_empty, List.all_eq_true] at hemp
    rcases h2 e he with h | h | ⟨d, hd, e', he', h⟩
    · rw [h]; simp
    · rw [h]; simp
    · rw [← h]
      rcases hnone d hd (hemp d hd) e' he' with ⟨i, ty, h⟩ | h <;> rw [h] <;> simp

/-! ### Examples -/

instance (d : Layout N) : Decidable d.Proper := by
  unfold Layout.Proper; infer_instance

/-- An empty type. -/
def exEmpty (n : String) : Part String := ⟨n, classLayout (.user n) [] []⟩

/-- A scalar type. -/
def exPart (n : String) (size : Nat) : Part String := ⟨n, scalar size⟩

/-- `struct D : E { int i; };` -/
def exDerived : Part String := ⟨"D", classLayout (.user "D") [classLayout (.user "E") [] []] [scalar 4]⟩

/-- `compressed_tuple<char, E, double, E, int, D>`. -/
def exParts : List (Part String) := [exPart "char" 1, exEmpty "E", exPart "double" 8, exEmpty "E", exPart "int" 4, exDerived]

/-- 24 bytes, 8 aligned. -/
example (msvc : Bool) : (tupleLayout msvc exParts).size = 24 ∧ (tupleLayout msvc exParts).align = 8 := by
  have h := C32_size_plain msvc exParts (by decide) (by
    intro p hp e he
    simp only [exParts, List.mem_cons, List.not_mem_nil, or_false] at hp
    rcases hp with rfl | rfl | rfl | rfl | rfl | rfl
    · simp [exPart, scalar] at he
    · exact ⟨"E", by simp [exEmpty, classLayout] at he; simp [he]⟩
    · simp [exPart, scalar] at he
    · exact ⟨"E", by simp [exEmpty, classLayout] at he; simp [he]⟩
    · simp [exPart, scalar] at he
    · have : e ∈ [((.user "E" : Name String), 0)] := he
      rw [List.mem_singleton] at this
      exact ⟨"E", by rw [this]⟩)
  rw [h.1, h.2]
  decide

/-- A stateless callable bound to a tuple containing another one and an `int`: 4 bytes. -/
example (back : Bool) : (boundLayout false back (exEmpty "F") ⟨"T", tupleLayout false [exEmpty "E", exPart "int" 4]⟩).size = 4 := by
  rw [(C32_bound_size_partial false back (exEmpty "F") ⟨"T", tupleLayout false [exEmpty "E", exPart "int" 4]⟩ (by decide) (by decide)
    (by decide) (by decide) (by cases back <;> decide)).1]
  decide

/-- **C32 is false** if the same stateless callable is bound and is the first of the bound values: `compressed_tuple{ f, 5 } >> f` takes 8 bytes, not 4,
since the two closures standing for `f` are of the same type and must not have the same address. -/
theorem C32_clash (back : Bool) :
    let t : Part String := ⟨"T", tupleLayout false [exEmpty "F", exPart "int" 4]⟩
    t.layout.size = 4 ∧ (exEmpty "F").layout.empty = true ∧ structSize (solid [(exEmpty "F").layout, t.layout]) = 4 ∧
    (boundLayout false back (exEmpty "F") t).size = 8 := by
  cases back <;> decide

/-- There the two closures standing for `f` are indeed apart, at 0 and 4. -/
example (back : Bool) :
    let b := boundLayout false back (exEmpty "F") ⟨"T", tupleLayout false [exEmpty "F", exPart "int" 4]⟩
    b.empties.Nodup ∧ (.emptyElem 0 "F", 0) ∈ b.empties ∧ (.emptyElem 0 "F", 4) ∈ b.empties := by
  refine ⟨(C32_addresses false back [] _ _ (by
    intro p hp
    simp only [List.mem_cons, List.not_mem_nil, or_false] at hp
    rcases hp with rfl | rfl
    · decide
    · exact ⟨(C32_addresses false true [exEmpty "F", exPart "int" 4] (exEmpty "F") (exEmpty "F") (by decide)).1, by decide⟩)).2, ?_⟩
  cases back <;> decide

end Pigro.Lay
