import Verif.Model.Special
/-!
# C88: special member functions

Specified by conditions on the types of the user alone. A type whose objects are not stored, being empty, is never in the way of copying.
-/
namespace Pigro.Spc

/-! ### Specification -/

/-- What is copied with a tuple or callable can be copied. -/
def Copyable (t : Caps) : Prop := t.empty = true ∨ t.copy = true

/-- ... can be moved, or copied instead. -/
def Movable (t : Caps) : Prop := t.empty = true ∨ t.move = true ∨ t.copy = true

mutual
/-- The functions and values a lazy function is made of. -/
def Tree.parts : Tree → List Caps
  | .value v => [v]
  | .function f _ => [f]
  | .lazy f _ ds => f :: partsL ds
/-- ... of all dependencies. -/
def partsL : List Tree → List Caps
  | [] => []
  | d :: ds => d.parts ++ partsL ds
end

mutual
/-- The results it remembers. -/
def Tree.results : Tree → List Caps
  | .value _ => []
  | .function _ r => [r]
  | .lazy _ r ds => r :: resultsL ds
/-- ... of all dependencies. -/
def resultsL : List Tree → List Caps
  | [] => []
  | d :: ds => d.results ++ resultsL ds
end

/-! ### Lemmas -/

theorem element_empty (ms : Bool) (t : Caps) : (element ms t).empty = t.empty := by
  rcases t with ⟨_ | _, d, c, mv, ca, ma⟩ <;> rcases ms with _ | _ <;> simp [element, closure, overload, cls, stdTuple]

theorem element_copy (ms : Bool) (t : Caps) : (element ms t).copy = (t.empty || t.copy) := by
  rcases t with ⟨_ | _, d, c, mv, ca, ma⟩ <;> rcases ms with _ | _ <;> simp [element, closure, overload, cls, stdTuple]

theorem element_move (ms : Bool) (t : Caps) : (element ms t).move = (t.empty || t.move || t.copy) := by
  rcases t with ⟨_ | _, d, _ | _, _ | _, ca, ma⟩ <;> rcases ms with _ | _ <;> simp [element, closure, overload, cls, stdTuple]

theorem element_copyAssign (ms : Bool) (t : Caps) : (element ms t).copyAssign = t.empty := by
  rcases t with ⟨_ | _, d, c, mv, ca, ma⟩ <;> rcases ms with _ | _ <;> simp [element, closure, overload, cls, stdTuple]

theorem element_moveAssign (ms : Bool) (t : Caps) : (element ms t).moveAssign = t.empty := by
  rcases t with ⟨_ | _, d, c, mv, ca, ma⟩ <;> rcases ms with _ | _ <;> simp [element, closure, overload, cls, stdTuple]

theorem element_default (ms : Bool) (t : Caps) : (element ms t).default = t.empty := by
  rcases t with ⟨_ | _, d, c, mv, ca, ma⟩ <;> rcases ms with _ | _ <;> simp [element, closure, overload, cls, stdTuple]

/-- Apart from default construction the constructors of the Microsoft variant make no difference. -/
theorem overload_caps (ms : Bool) (fs : List Caps) : (overload ms fs).empty = fs.all (·.empty) ∧ (overload ms fs).copy = fs.all (·.copy) ∧
    (overload ms fs).move = (fs.all (·.move) || fs.all (·.copy)) ∧ (overload ms fs).copyAssign = fs.all (·.copyAssign) ∧
    (overload ms fs).moveAssign = (fs.all (·.moveAssign) || fs.all (·.copyAssign)) ∧
    (overload ms fs).default = (fs.all (·.default) && (!ms || fs.isEmpty)) := by
  rcases ms with _ | _
  · simp [overload, cls]
  · rcases fs with _ | ⟨f, fs⟩
    · simp [overload, cls]
    · simp only [overload, cls, List.append_nil, List.all_cons, List.all_nil, Bool.and_true, List.isEmpty_nil, if_true]
      refine ⟨trivial, trivial, ?_, trivial, ?_, by simp⟩
      · cases (f.move && fs.all fun x => x.move) <;> cases (f.copy && fs.all fun x => x.copy) <;> rfl
      · cases (f.moveAssign && fs.all fun x => x.moveAssign) <;> cases (f.copyAssign && fs.all fun x => x.copyAssign) <;> rfl

theorem recursive_caps (f : Caps) : (recursive f).empty = f.empty ∧ (recursive f).copy = f.copy ∧ (recursive f).move = (f.move || f.copy) ∧ (recursive f).copyAssign = f.copyAssign ∧
    (recursive f).moveAssign = (f.moveAssign || f.copyAssign) ∧ (recursive f).default = f.default := by
  simp [recursive, cls]

theorem tuple_empty (ms : Bool) (ts : List Caps) : (tuple ms ts).empty = ts.all (·.empty) := by
  obtain ⟨h1, -⟩ := overload_caps ms (ts.map (element ms))
  obtain ⟨g1, -⟩ := recursive_caps (overload ms (ts.map (element ms)))
  simp only [tuple, cls, List.all_cons, List.all_nil, Bool.and_true, List.isEmpty_nil, g1, h1, List.all_map]
  congr 1
  funext t
  exact element_empty ms t

theorem tuple_copy (ms : Bool) (ts : List Caps) : (tuple ms ts).copy = ts.all fun t => t.empty || t.copy := by
  obtain ⟨-, h1, -⟩ := overload_caps ms (ts.map (element ms))
  obtain ⟨-, g1, -⟩ := recursive_caps (overload ms (ts.map (element ms)))
  simp only [tuple, cls, List.append_nil, List.all_cons, List.all_nil, Bool.and_true, g1, h1, List.all_map]
  congr 1
  funext t
  exact element_copy ms t

theorem all_or {α : Type} (p q : α → Bool) (l : List α) (h : ∀ a, q a = true → p a = true) : (l.all p || l.all q) = l.all p := by
  rcases hq : l.all q with _ | _
  · simp
  · rw [List.all_eq_true] at hq
    have : l.all p = true := List.all_eq_true.2 fun a ha => h a (hq a ha)
    rw [this]; rfl

theorem tuple_move (ms : Bool) (ts : List Caps) : (tuple ms ts).move = ts.all fun t => t.empty || t.move || t.copy := by
  obtain ⟨-, h2, h1, -⟩ := overload_caps ms (ts.map (element ms))
  obtain ⟨-, g2, g1, -⟩ := recursive_caps (overload ms (ts.map (element ms)))
  have e1 : (fun t => (element ms t).move) = fun t => t.empty || t.move || t.copy := funext fun t => element_move ms t
  have e2 : (fun t => (element ms t).copy) = fun t => t.empty || t.copy := funext fun t => element_copy ms t
  simp only [tuple, cls, List.append_nil, List.all_cons, List.all_nil, Bool.and_true, g1, g2, h1, h2, List.all_map, Function.comp_def, e1, e2]
  rw [all_or (fun t => t.empty || t.move || t.copy) (fun t => t.empty || t.copy) ts (by
    intro t; rcases t with ⟨_ | _, d, _ | _, _ | _, ca, ma⟩ <;> simp)]
  rw [all_or (fun t => t.empty || t.move || t.copy) (fun t => t.empty || t.copy) ts (by
    intro t; rcases t with ⟨_ | _, d, _ | _, _ | _, ca, ma⟩ <;> simp)]
  rw [all_or (fun t => t.empty || t.move || t.copy) (fun t => t.empty || t.copy) ts (by
    intro t; rcases t with ⟨_ | _, d, _ | _, _ | _, ca, ma⟩ <;> simp)]

theorem tuple_assign (ms : Bool) (ts : List Caps) : (tuple ms ts).copyAssign = ts.all (·.empty) ∧ (tuple ms ts).moveAssign = ts.all (·.empty) := by
  obtain ⟨-, -, -, h1, h2, -⟩ := overload_caps ms (ts.map (element ms))
  obtain ⟨-, -, -, g1, g2, -⟩ := recursive_caps (overload ms (ts.map (element ms)))
  have e1 : (fun t => (element ms t).copyAssign) = fun t => t.empty := funext fun t => element_copyAssign ms t
  have e2 : (fun t => (element ms t).moveAssign) = fun t => t.empty := funext fun t => element_moveAssign ms t
  simp [tuple, cls, g1, g2, h1, h2, List.all_map, Function.comp_def, e1, e2]

theorem bound_caps (ms : Bool) (f t : Caps) : (bound ms f t).empty = (f.empty && t.empty) ∧ (bound ms f t).copy = ((f.empty || f.copy) && (t.empty || t.copy)) ∧
    (bound ms f t).move = ((f.empty || f.move || f.copy) && (t.empty || t.move || t.copy)) ∧ (bound ms f t).copyAssign = (f.empty && t.empty) ∧
    (bound ms f t).moveAssign = (f.empty && t.empty) ∧ (bound ms f t).default = (!ms && f.empty && t.empty) := by
  obtain ⟨h1, h2, h3, h4, h5, h6⟩ := overload_caps ms [element ms f, element ms t, closure false []]
  obtain ⟨g1, g2, g3, g4, g5, g6⟩ := recursive_caps (overload ms [element ms f, element ms t, closure false []])
  rw [bound, g1, g2, g3, g4, g5, g6, h1, h2, h3, h4, h5, h6]
  simp only [List.all_cons, List.all_nil, Bool.and_true, element_empty, element_copy, element_move, element_copyAssign, element_moveAssign, element_default, List.isEmpty_cons]
  rcases f with ⟨_ | _, _, _ | _, _ | _, _, _⟩ <;> rcases t with ⟨_ | _, _, _ | _, _ | _, _, _⟩ <;> rcases ms with _ | _ <;> simp [closure]

theorem closure_stateless : closure false [] = ⟨true, true, true, true, true, true⟩ := by simp [closure]

/-! ### Tuples, binders, uncaptured values -/

/-- **C88**, `compressed_tuple`: with both variants of overload.h it can be copied or moved exactly if its elements can. It can be assigned exactly if all its elements are of empty type, whether or
not they can be assigned; and default constructed if they can, and can then be moved (copied, with the Microsoft variant). -/
theorem C88_tuple (ms : Bool) (ts : List Caps) :
    ((tuple ms ts).copy = true ↔ ∀ t ∈ ts, Copyable t) ∧
    ((tuple ms ts).move = true ↔ ∀ t ∈ ts, Movable t) ∧
    ((tuple ms ts).copyAssign = true ↔ ∀ t ∈ ts, t.empty = true) ∧
    ((tuple ms ts).moveAssign = true ↔ ∀ t ∈ ts, t.empty = true) ∧
    ((tuple ms ts).default = true ↔ ∀ t ∈ ts, t.default = true ∧ (t.empty = true ∨ t.move = true ∧ (ms = true → t.copy = true))) := by
  refine ⟨?_, ?_, ?_, ?_, ?_⟩
  · rw [tuple_copy]; simp [Copyable]
  · rw [tuple_move]; simp [Movable, or_assoc]
  · rw [(tuple_assign ms ts).1]; simp
  · rw [(tuple_assign ms ts).2]; simp
  · simp only [tuple, makeable, Bool.and_eq_true, List.all_eq_true, Bool.or_eq_true, Bool.not_eq_true']
    constructor
    · rintro ⟨h1, h2⟩ t ht
      refine ⟨h1 t ht, ?_⟩
      rcases h2 t ht with h | ⟨h, h'⟩
      · exact .inl h
      · refine .inr ⟨h, fun hm => ?_⟩
        rcases h' with h' | h'
        · rw [hm] at h'; simp at h'
        · exact h'
    · intro h
      refine ⟨fun t ht => (h t ht).1, fun t ht => ?_⟩
      rcases (h t ht).2 with h | ⟨h, h'⟩
      · exact .inl h
      · refine .inr ⟨h, ?_⟩
        rcases ms with _ | _
        · exact .inl rfl
        · exact .inr (h' rfl)

/-- **C88**, making a tuple from values: they all have to be copyable, even when given as rvalues (see C64). So a type that can only be moved can be in a tuple only by default construction. -/
theorem C88_constructible (ms : Bool) (ts : List Caps) :
    constructible ms ts = true ↔ ∀ t ∈ ts, t.copy = true ∧ (t.empty = true ∨ t.move = true) := by
  simp only [constructible, makeable, Bool.and_eq_true, List.all_eq_true, Bool.or_eq_true, Bool.not_eq_true']
  constructor
  · rintro ⟨h1, h2⟩ t ht
    exact ⟨h1 t ht, (h2 t ht).imp id And.left⟩
  · intro h
    exact ⟨fun t ht => (h t ht).1, fun t ht => (h t ht).2.imp id fun h' => ⟨h', .inr (h t ht).1⟩⟩

/-- `compressed_tuple<int, E, std::unique_ptr<int>>`: default constructed and moved, never copied or assigned, and not with the Microsoft variant. -/
example : let up : Caps := ⟨false, true, false, true, false, true⟩
    let e : Caps := ⟨true, true, true, true, true, true⟩
    (tuple false [int, e, up]).move = true ∧ (tuple false [int, e, up]).copy = false ∧ (tuple false [int, e, up]).moveAssign = false ∧ (tuple false [int, e, up]).default = true ∧
    (tuple true [int, e, up]).default = false ∧ constructible false [int, e, up] = false ∧ (tuple false [e, e]).copyAssign = true := by decide

/-- **C88**, `compressed_tuple{ v... } >> f` and `<< f`: as the tuple and the callable. Assigned only if nothing is stored. -/
theorem C88_bound (ms : Bool) (f : Caps) (ts : List Caps) :
    ((bound ms f (tuple ms ts)).copy = true ↔ ∀ t ∈ f :: ts, Copyable t) ∧
    ((bound ms f (tuple ms ts)).move = true ↔ ∀ t ∈ f :: ts, Movable t) ∧
    ((bound ms f (tuple ms ts)).copyAssign = true ↔ ∀ t ∈ f :: ts, t.empty = true) ∧
    ((bound ms f (tuple ms ts)).moveAssign = true ↔ ∀ t ∈ f :: ts, t.empty = true) ∧
    ((bound ms f (tuple ms ts)).default = true ↔ ms = false ∧ ∀ t ∈ f :: ts, t.empty = true) := by
  obtain ⟨-, h2, h3, h4, h5, h6⟩ := bound_caps ms f (tuple ms ts)
  rw [h2, h3, h4, h5, h6, tuple_empty, tuple_copy, tuple_move]
  refine ⟨?_, ?_, ?_, ?_, ?_⟩
  · have h1 : (ts.all (·.empty) || ts.all fun t => t.empty || t.copy) = ts.all fun t => t.empty || t.copy :=
      Bool.or_eq_right_iff_imp.2 (by simp only [List.all_eq_true, Bool.or_eq_true]; exact fun h t ht => .inl (h t ht))
    rw [h1]
    simp [Copyable]
  · have h1 : (ts.all (·.empty) || ts.all fun t => t.empty || t.move || t.copy) = ts.all fun t => t.empty || t.move || t.copy := by
      rw [Bool.or_eq_right_iff_imp.2 (by simp only [List.all_eq_true, Bool.or_eq_true]; exact fun h t ht => .inl (.inl (h t ht)))]
    have h2 : ((ts.all fun t => t.empty || t.move || t.copy) || ts.all fun t => t.empty || t.copy) = ts.all fun t => t.empty || t.move || t.copy :=
      all_or _ _ ts (by intro t; rcases t with ⟨_ | _, d, _ | _, _ | _, ca, ma⟩ <;> simp)
    rw [h1, h2]
    simp [Movable, or_assoc]
  · simp
  · simp
  · simp [and_assoc]

/-- `compressed_tuple{ E{} } >> [] {...}` can be assigned, `compressed_tuple{ 1 } >> [] {...}` cannot; nor can `compressed_tuple{ E{} } >> [n] {...}`. -/
example : let e : Caps := ⟨true, true, true, true, true, true⟩
    (bound false (closure false []) (tuple false [e])).copyAssign = true ∧ (bound false (closure false []) (tuple false [int])).copyAssign = false ∧
    (bound false (closure true [int]) (tuple false [e])).copyAssign = false ∧ (bound true (closure false []) (tuple true [int])).copy = true := by decide

theorem elementRef_eq (ms : Bool) (t : Caps) : elementRef ms t = element ms ⟨t.empty, false, true, true, t.copyAssign, t.copyAssign⟩ := by
  rcases t with ⟨_ | _, d, c, mv, ca, ma⟩ <;> rfl

/-- **C88**, `t >> f` and `t << f` with lvalues, of which references are kept: what is referred to need not be copyable or movable. Assigned or made without arguments only if nothing is stored, all
the same. -/
theorem C88_bound_lvalues (ms fl tl : Bool) (f : Caps) (ts : List Caps) :
    ((boundOf ms fl tl f (tuple ms ts)).copy = true ↔ (fl = true ∨ Copyable f) ∧ (tl = true ∨ ∀ t ∈ ts, Copyable t)) ∧
    ((boundOf ms fl tl f (tuple ms ts)).move = true ↔ (fl = true ∨ Movable f) ∧ (tl = true ∨ ∀ t ∈ ts, Movable t)) ∧
    ((boundOf ms fl tl f (tuple ms ts)).copyAssign = true ↔ ∀ t ∈ f :: ts, t.empty = true) ∧
    ((boundOf ms fl tl f (tuple ms ts)).moveAssign = true ↔ ∀ t ∈ f :: ts, t.empty = true) ∧
    ((boundOf ms fl tl f (tuple ms ts)).default = true ↔ ms = false ∧ ∀ t ∈ f :: ts, t.empty = true) := by
  have hf : ∃ f', (if fl then elementRef ms f else element ms f) = element ms f' ∧ f'.empty = f.empty ∧ (f'.copy = true ↔ fl = true ∨ f.copy = true) ∧
      ((f'.move = true ∨ f'.copy = true) ↔ fl = true ∨ f.move = true ∨ f.copy = true) := by
    cases fl
    · exact ⟨f, rfl, rfl, by simp, by simp⟩
    · exact ⟨_, elementRef_eq ms f, rfl, by simp, by simp⟩
  obtain ⟨f', e1, e2, e3, e4⟩ := hf
  obtain ⟨b1, b2, b3, b4, b5⟩ := C88_bound ms f' ts
  obtain ⟨c1, c2, c3, c4, c5, c6⟩ := bound_caps ms f' (tuple ms ts)
  have c7 : Copyable f' ↔ fl = true ∨ Copyable f := by
    rw [Copyable, Copyable, e2, e3]
    exact ⟨fun h => h.elim (fun h => .inr (.inl h)) fun h => h.imp id .inr, fun h => h.elim (fun h => .inr (.inl h)) fun h => h.imp id .inr⟩
  have c8 : Movable f' ↔ fl = true ∨ Movable f := by
    rw [Movable, Movable, e2, e4]
    exact ⟨fun h => h.elim (fun h => .inr (.inl h)) fun h => h.imp id .inr, fun h => h.elim (fun h => .inr (.inl h)) fun h => h.imp id .inr⟩
  simp only [List.forall_mem_cons] at b1 b2 b3 b4 b5 ⊢
  rw [boundOf, e1]
  cases tl
  · change ((bound ms f' (tuple ms ts)).copy = true ↔ _) ∧ ((bound ms f' (tuple ms ts)).move = true ↔ _) ∧ ((bound ms f' (tuple ms ts)).copyAssign = true ↔ _) ∧
      ((bound ms f' (tuple ms ts)).moveAssign = true ↔ _) ∧ ((bound ms f' (tuple ms ts)).default = true ↔ _)
    rw [b1, b2, b3, b4, b5, c7, c8, e2]
    simp
  · rw [if_pos rfl, elementRef_eq]
    obtain ⟨d1, d2, d3, d4, d5, d6⟩ := bound_caps ms f' ⟨(tuple ms ts).empty, false, true, true, (tuple ms ts).copyAssign, (tuple ms ts).copyAssign⟩
    rw [bound] at d1 d2 d3 d4 d5 d6
    rw [d2, d3, d4, d5, d6, tuple_empty, e2]
    refine ⟨?_, ?_, by simp, by simp, by simp [and_assoc]⟩
    · rw [← c7]; simp [Copyable, e2]
    · rw [← c8]; simp [Movable, e2, or_assoc]

/-- `t >> f` for an lvalue `f` that cannot be copied or moved, and a tuple with an int; not so if `f` were moved into it. -/
example : let f : Caps := ⟨false, true, false, false, false, false⟩
    (boundOf false true false f (tuple false [int])).copy = true ∧ (boundOf false false false f (tuple false [int])).move = false ∧ (boundOf false true true f (tuple false [int])).copyAssign = false := by
  decide

/-- **C88**, `uncaptured(v...) >> f`: copied, moved and assigned as its values and the callable; but never default constructed. -/
theorem C88_uncaptured (f : Caps) (vs : List Caps) (hf : f.copy = true → f.move = true) (hf' : f.copyAssign = true → f.moveAssign = true) :
    ((uncapture f vs).copy = true ↔ f.copy = true ∧ ∀ v ∈ vs, Copyable v) ∧
    ((uncapture f vs).move = true ↔ f.move = true ∧ ∀ v ∈ vs, Movable v) ∧
    ((uncapture f vs).copyAssign = true ↔ f.copyAssign = true ∧ ∀ v ∈ vs, v.empty = true ∨ v.copyAssign = true) ∧
    ((uncapture f vs).moveAssign = true ↔ f.moveAssign = true ∧ ∀ v ∈ vs, v.empty = true ∨ v.moveAssign = true ∨ v.copyAssign = true) ∧
    ((uncapture f vs).default = true ↔ vs = [] ∧ f.default = true) := by
  have one : ∀ v : Caps, (uncaptured v).copy = (v.empty || v.copy) ∧ (uncaptured v).move = (v.empty || v.move || v.copy) ∧ (uncaptured v).copyAssign = (v.empty || v.copyAssign) ∧
      (uncaptured v).moveAssign = (v.empty || v.moveAssign || v.copyAssign) := by
    intro v
    rcases v with ⟨_ | _, d, c, mv, ca, ma⟩ <;> simp [uncaptured, cls]
  induction vs with
  | nil => simp [uncapture]
  | cons v vs ih =>
    obtain ⟨i1, i2, i3, i4, -⟩ := ih
    obtain ⟨o1, o2, o3, o4⟩ := one v
    have hc : (uncapture f vs).copy = true → (uncapture f vs).move = true := fun h =>
      i2.2 ⟨hf (i1.1 h).1, fun v hv => ((i1.1 h).2 v hv).imp id .inr⟩
    have hca : (uncapture f vs).copyAssign = true → (uncapture f vs).moveAssign = true := fun h =>
      i4.2 ⟨hf' (i3.1 h).1, fun v hv => ((i3.1 h).2 v hv).imp id .inr⟩
    refine ⟨?_, ?_, ?_, ?_, by simp [uncapture]⟩
    · simp only [uncapture, cls, List.append_nil, List.all_cons, List.all_nil, Bool.and_true, Bool.and_eq_true, o1, i1, List.forall_mem_cons, Copyable, Bool.or_eq_true]
      exact ⟨fun ⟨a, b, c⟩ => ⟨b, a, c⟩, fun ⟨b, a, c⟩ => ⟨a, b, c⟩⟩
    · simp only [uncapture, cls, List.append_nil, List.all_cons, List.all_nil, Bool.and_true, Bool.and_eq_true, o1, o2, List.forall_mem_cons, Bool.or_eq_true]
      constructor
      · rintro (⟨a, b⟩ | ⟨a, b⟩)
        · obtain ⟨c, d⟩ := i2.1 b
          exact ⟨c, by simpa [Movable, or_assoc] using a, d⟩
        · obtain ⟨c, d⟩ := i2.1 (hc b)
          exact ⟨c, a.imp id .inr, d⟩
      · rintro ⟨a, b, c⟩
        exact .inl ⟨by simpa [Movable, or_assoc] using b, i2.2 ⟨a, c⟩⟩
    · simp only [uncapture, cls, List.append_nil, List.all_cons, List.all_nil, Bool.and_true, Bool.and_eq_true, o3, i3, List.forall_mem_cons, Bool.or_eq_true]
      exact ⟨fun ⟨a, b, c⟩ => ⟨b, a, c⟩, fun ⟨b, a, c⟩ => ⟨a, b, c⟩⟩
    · simp only [uncapture, cls, List.append_nil, List.all_cons, List.all_nil, Bool.and_true, Bool.and_eq_true, o3, o4, List.forall_mem_cons, Bool.or_eq_true]
      constructor
      · rintro (⟨a, b⟩ | ⟨a, b⟩)
        · obtain ⟨c, d⟩ := i4.1 b
          exact ⟨c, by simpa [or_assoc] using a, d⟩
        · obtain ⟨c, d⟩ := i4.1 (hca b)
          exact ⟨c, a.imp id .inr, d⟩
      · rintro ⟨a, b, c⟩
        exact .inl ⟨by simpa [or_assoc] using b, i4.2 ⟨a, c⟩⟩

/-- `uncaptured(1, 2) >> [] {...}` can be assigned, unlike `compressed_tuple{ 1, 2 } >> [] {...}`. -/
example : (uncapture (closure false []) [int, int]).copyAssign = true ∧ (bound false (closure false []) (tuple false [int, int])).copyAssign = false ∧
    (uncapture (closure false []) [int, int]).default = false := by decide

/-! ### Lazy functions -/

theorem wrapped_caps (ms : Bool) (f : Caps) : (wrapped ms f).empty = f.empty ∧ (wrapped ms f).copy = (f.empty || f.copy) ∧ (wrapped ms f).move = (f.empty || f.move || f.copy) ∧
    (wrapped ms f).copyAssign = f.empty ∧ (wrapped ms f).moveAssign = f.empty ∧ (wrapped ms f).default = (!ms && f.empty) := by
  obtain ⟨h1, h2, h3, h4, h5, h6⟩ := bound_caps ms (closure false []) (tuple ms [f])
  rw [wrapped, h1, h2, h3, h4, h5, h6, tuple_empty, tuple_copy, tuple_move, closure_stateless]
  rcases f with ⟨_ | _, _, _ | _, _ | _, _, _⟩ <;> simp

theorem unwrapValue_caps (ms : Bool) (f : Caps) : (unwrapValue ms f).empty = f.empty ∧ (unwrapValue ms f).copy = (f.empty || f.copy) ∧
    (unwrapValue ms f).move = (f.empty || f.move || f.copy) := by
  obtain ⟨h1, h2, h3, -⟩ := overload_caps ms [bound ms (closure false []) (tuple ms [f]), closure false []]
  obtain ⟨g1, g2, g3, -⟩ := recursive_caps (overload ms [bound ms (closure false []) (tuple ms [f]), closure false []])
  obtain ⟨k1, k2, k3, -⟩ := wrapped_caps ms f
  rw [wrapped] at k1 k2 k3
  rw [unwrapValue, g1, g2, g3, h1, h2, h3]
  simp only [List.all_cons, List.all_nil]
  rw [k1, k2, k3, closure_stateless]
  rcases f with ⟨_ | _, _, _ | _, _ | _, _, _⟩ <;> simp

theorem lazyValue_caps (ms : Bool) (v : Caps) : (lazyValue ms v boolConstant).empty = v.empty ∧ (lazyValue ms v boolConstant).copy = (v.empty || v.copy) ∧
    (lazyValue ms v boolConstant).move = (v.empty || v.move || v.copy) := by
  obtain ⟨h1, h2, h3, -⟩ := bound_caps ms (closure false []) (tuple ms [v, boolConstant])
  rw [lazyValue, h1, h2, h3, tuple_empty, tuple_copy, tuple_move, closure_stateless]
  rcases v with ⟨_ | _, _, _ | _, _ | _, _, _⟩ <;> simp [boolConstant, cls]

theorem detailLazy_caps (ms : Bool) (f r : Caps) (ds : List Caps) : (detailLazy ms f r ds).empty = false ∧
    (detailLazy ms f r ds).copy = (r.copy && (f :: ds).all fun d => d.empty || d.copy) ∧
    (detailLazy ms f r ds).move = ((r.move || r.copy) && (f :: ds).all fun d => d.empty || d.move || d.copy) := by
  obtain ⟨h1, h2, h3, -⟩ := bound_caps ms (closure true [optional r]) (tuple ms (f :: ds))
  rw [detailLazy, h1, h2, h3, tuple_empty, tuple_copy, tuple_move]
  have e1 : (((f :: ds).all (·.empty)) || (f :: ds).all fun d => d.empty || d.copy) = (f :: ds).all fun d => d.empty || d.copy :=
    Bool.or_eq_right_iff_imp.2 (by simp only [List.all_eq_true, Bool.or_eq_true]; exact fun h t ht => .inl (h t ht))
  have e2 : (((f :: ds).all (·.empty)) || (f :: ds).all fun t => t.empty || t.move || t.copy) = (f :: ds).all fun t => t.empty || t.move || t.copy :=
    Bool.or_eq_right_iff_imp.2 (by simp only [List.all_eq_true, Bool.or_eq_true]; exact fun h t ht => .inl (.inl (h t ht)))
  have e3 : (((f :: ds).all fun t => t.empty || t.move || t.copy) || (f :: ds).all fun t => t.empty || t.copy) = (f :: ds).all fun t => t.empty || t.move || t.copy :=
    all_or _ _ _ (by intro t; rcases t with ⟨_ | _, d, _ | _, _ | _, ca, ma⟩ <;> simp)
  refine ⟨by simp [closure], ?_, ?_⟩
  · rw [e1]; simp [closure, optional]
  · rw [e2, e3]; simp [closure, optional]

theorem dep_nonempty (ms : Bool) (f r : Caps) (ds : List Tree) : (dep ms int (.lazy f r ds)).empty = false := by
  rw [dep, (wrapped_caps ms _).1, (unwrapValue_caps ms _).1, (detailLazy_caps ms _ _ _).1]

mutual
theorem dep_copy (ms : Bool) : ∀ t : Tree,
    ((dep ms int t).empty || (dep ms int t).copy) = ((t.parts.all fun p => p.empty || p.copy) && t.results.all (·.copy))
  | .value v => by
    obtain ⟨h1, h2, -⟩ := lazyValue_caps ms v
    rw [dep, h1, h2]
    simp [Tree.parts, Tree.results]
  | .function f r => by
    obtain ⟨h1, h2, -⟩ := detailLazy_caps ms (wrapped ms f) r [lazyValue ms int boolConstant]
    obtain ⟨k1, k2, -⟩ := lazyValue_caps ms int
    obtain ⟨w1, w2, -⟩ := wrapped_caps ms f
    rw [dep, h1, h2]
    simp only [List.all_cons, List.all_nil, k1, k2, w1, w2, Tree.parts, Tree.results]
    rcases f with ⟨_ | _, _, _ | _, _ | _, _, _⟩ <;> rcases r with ⟨_ | _, _, _ | _, _ | _, _, _⟩ <;> simp [int]
  | .lazy f r ds => by
    have ih := deps_copy ms ds
    obtain ⟨h1, h2, -⟩ := detailLazy_caps ms (wrapped ms f) r (deps ms int ds)
    obtain ⟨k1, k2, -⟩ := unwrapValue_caps ms (detailLazy ms (wrapped ms f) r (deps ms int ds))
    obtain ⟨u1, u2, -⟩ := wrapped_caps ms (unwrapValue ms (detailLazy ms (wrapped ms f) r (deps ms int ds)))
    obtain ⟨w1, w2, -⟩ := wrapped_caps ms f
    rw [dep, u1, u2, k1, k2, h1, h2]
    simp only [List.all_cons, w1, w2, Tree.parts, Tree.results, ih]
    rcases f with ⟨_ | _, _, _ | _, _ | _, _, _⟩ <;> rcases r with ⟨_ | _, _, _ | _, _ | _, _, _⟩ <;> simp
theorem deps_copy (ms : Bool) : ∀ ds : List Tree,
    ((deps ms int ds).all fun d => d.empty || d.copy) = (((partsL ds).all fun p => p.empty || p.copy) && (resultsL ds).all (·.copy))
  | [] => rfl
  | d :: ds => by
    rw [deps, List.all_cons, dep_copy ms d, deps_copy ms ds, partsL, resultsL, List.all_append, List.all_append]
    ac_rfl
end

/-- **C88** (partial: not assigned), lazy functions: they can be copied exactly if the functions and values they are made of, and the results they remember, can; and then they can be moved. -/
theorem C88_lazy_partial (ms : Bool) (f r : Caps) (ds : List Tree) :
    ((lazy ms int f r ds).copy = true ↔ (∀ p ∈ (Tree.lazy f r ds).parts, Copyable p) ∧ ∀ p ∈ (Tree.lazy f r ds).results, p.copy = true) ∧
    ((lazy ms int f r ds).copy = true → (lazy ms int f r ds).move = true) := by
  have h := dep_copy ms (.lazy f r ds)
  rw [dep_nonempty, Bool.false_or] at h
  refine ⟨?_, ?_⟩
  · rw [lazy, h]
    simp [Copyable]
  · intro hc
    rw [lazy, dep] at hc ⊢
    obtain ⟨-, u2, u3, -⟩ := wrapped_caps ms (unwrapValue ms (detailLazy ms (wrapped ms f) r (deps ms int ds)))
    rw [u2] at hc
    rw [u3]
    simp only [Bool.or_eq_true] at hc ⊢
    exact hc.elim (fun h => .inl (.inl h)) .inr

/-- A lazy function with a value, a function and a lazy function as dependencies. -/
example : (lazy false int int int [.value int, .function int int, .lazy int int []]).copy = true ∧
    (lazy false int int int [.value ⟨false, true, false, true, false, true⟩]).copy = false := by decide

/-- **C88 is false of assignment**: no lazy function can be assigned or default constructed, whatever it is made of: it contains a closure with a capture. -/
theorem C88_lazy_not_assignable (ms : Bool) (f r : Caps) (ds : List Tree) :
    (lazy ms int f r ds).copyAssign = false ∧ (lazy ms int f r ds).moveAssign = false ∧ (lazy ms int f r ds).default = false := by
  rw [lazy, dep]
  obtain ⟨-, -, -, u4, u5, u6⟩ := wrapped_caps ms (unwrapValue ms (detailLazy ms (wrapped ms f) r (deps ms int ds)))
  rw [u4, u5, u6, (unwrapValue_caps ms _).1, (detailLazy_caps ms _ _ _).1]
  simp

/-- Even where every function, value and result can be. -/
example : (lazy false int (closure false []) int []).copyAssign = false ∧ (closure false []).copyAssign = true ∧ int.copyAssign = true := by decide

/-! ### Which constructor copies -/

/-- **C88**, which constructor: a tuple is initialised from another by its copy or move constructor, except that for one element, in direct initialisation from a non-const lvalue or a const rvalue, the
constructor template is preferred, which takes the tuple for a value of the element type. -/
theorem C88_constructor (direct : Bool) (n : Nat) (c : Bool) (cat : Cxx.Cat) :
    chosen direct n c cat =
      if direct = true ∧ n = 1 ∧ (c = false ∧ cat = .lv ∨ c = true ∧ cat = .xv) then .template
      else if c = false ∧ cat = .xv then .move else .copy := by
  by_cases hn : n = 1
  · subst hn
    cases direct <;> cases c <;> cases cat <;> decide
  · cases direct <;> cases c <;> cases cat <;> (simp only [chosen, Ctor.viable, Ctor.rank, hn, decide_false, List.filter]; decide)

/-- **C88**: the model of tuples in memory agrees: copying a tuple there fails exactly if the template is chosen, and is member by member otherwise. -/
theorem C88_constructor_memory {B V L : Type} (Λ : Cxx.Lang B V) (c : Bool) (cat : Cxx.Cat) (els : List (Cxx.Elem B)) (m : Cxx.Mem V L) :
    Cxx.initTuple Λ c cat els m = if chosen true els.length c cat = .template then none else some (Cxx.initElems Λ c cat els m) := by
  rw [C88_constructor]
  rcases els with _ | ⟨a, _ | ⟨b, els⟩⟩
  · cases c <;> cases cat <;> simp [Cxx.initTuple]
  · cases c <;> cases cat <;> simp [Cxx.initTuple]
  · cases c <;> cases cat <;> simp [Cxx.initTuple]

/-- `compressed_tuple b(a);` for a tuple `a` of one element takes the template, `auto b = a;` does not; and for two elements neither does. -/
example : chosen true 1 false .lv = .template ∧ chosen false 1 false .lv = .copy ∧ chosen true 2 false .lv = .copy ∧ chosen true 1 false .xv = .move := by decide

end Pigro.Spc
