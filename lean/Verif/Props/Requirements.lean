import Verif.Model.Requirements
import Verif.Props.Special
/-!
# C94: what lazy functions ask of types
-/
namespace Pigro.Spc

/-! ### Specification -/

/-- A function or value that is kept: it can be copied, and moving it is not forbidden (`T(T &&) = delete`) unless it is empty. -/
def Kept (t : Caps) : Prop := t.copy = true ∧ (t.empty = true ∨ t.move = true)

/-- A result that is kept: `void`, or it can be copied, assigned from a const object, and compared. -/
def Remembered : Result → Prop
  | .void => True
  | .object c ne => c.copy = true ∧ c.copyAssign = true ∧ ne = true

mutual
/-- What is asked of all types in a tree of dependencies. -/
def Given.Fit : Given → Prop
  | .value v => Kept v
  | .function f r => Kept f ∧ Remembered r ∧ r ≠ .void
  | .lazy f r ds => Kept f ∧ Remembered r ∧ Given.FitAll ds
/-- ... of all dependencies. -/
def Given.FitAll : List Given → Prop
  | [] => True
  | d :: ds => d.Fit ∧ Given.FitAll ds
end

/-! ### Proof -/

theorem bindOk_iff (ms : Bool) (f : Caps) (vs : List Caps) : bindOk ms f vs = true ↔ (∀ v ∈ vs, Kept v) ∧ (f.empty = true ∨ f.move = true ∧ (ms = true → f.copy = true)) := by
  rw [bindOk, Bool.and_eq_true, C88_constructible]
  refine and_congr_right fun h => ?_
  have h1 : (tuple ms vs).copy = true := (C88_tuple ms vs).1.2 fun t ht => .inr (h t ht).1
  have h2 : (tuple ms vs).move = true := (C88_tuple ms vs).2.1.2 fun t ht => .inr (.inr (h t ht).1)
  simp only [makeable, List.all_cons, List.all_nil, Bool.and_true, Bool.and_eq_true, Bool.or_eq_true, Bool.not_eq_true', h1, h2]
  rcases ms with _ | _ <;> simp

theorem stateless_kept : Kept (closure false []) := by rw [closure_stateless]; exact ⟨rfl, .inl rfl⟩

theorem bound_kept (ms : Bool) (f : Caps) (vs : List Caps) (hf : f.copy = true) (hv : ∀ v ∈ vs, v.copy = true) :
    (bound ms f (tuple ms vs)).copy = true ∧ (bound ms f (tuple ms vs)).move = true := by
  refine ⟨(C88_bound ms f vs).1.2 ?_, (C88_bound ms f vs).2.1.2 ?_⟩ <;>
  · intro t ht
    rcases List.mem_cons.1 ht with rfl | ht
    · first | exact .inr hf | exact .inr (.inr hf)
    · first | exact .inr (hv t ht) | exact .inr (.inr (hv t ht))

theorem wrapped_kept (ms : Bool) (f : Caps) (hf : f.copy = true) : Kept (wrapped ms f) := by
  have h := bound_kept ms (closure false []) [f] stateless_kept.1 (by simpa using hf)
  exact ⟨h.1, .inr h.2⟩

theorem lazyValue_kept (ms : Bool) (v c : Caps) (hv : v.copy = true) (hc : c.copy = true) : Kept (lazyValue ms v c) := by
  have h := bound_kept ms (closure false []) [v, c] stateless_kept.1 (by simp [hv, hc])
  exact ⟨h.1, .inr h.2⟩

theorem detailLazy_kept (ms : Bool) (f r : Caps) (deps : List Caps) (hf : f.copy = true) (hr : r.copy = true) (hd : ∀ d ∈ deps, d.copy = true) : Kept (detailLazy ms f r deps) := by
  have h := bound_kept ms (closure true [optional r]) (f :: deps) (by simp [closure, optional, hr]) (by simpa [hf] using hd)
  exact ⟨h.1, .inr h.2⟩

theorem unwrapValue_kept (ms : Bool) (f : Caps) (hf : f.copy = true) : Kept (unwrapValue ms f) := by
  have h := bound_kept ms (closure false []) [f] stateless_kept.1 (by simpa using hf)
  obtain ⟨-, h2, h3, -⟩ := overload_caps ms [bound ms (closure false []) (tuple ms [f]), closure false []]
  obtain ⟨-, g2, g3, -⟩ := recursive_caps (overload ms [bound ms (closure false []) (tuple ms [f]), closure false []])
  refine ⟨?_, .inr ?_⟩
  · rw [unwrapValue, g2, h2, List.all_cons, List.all_cons, h.1, stateless_kept.1]; rfl
  · rw [unwrapValue, g3, h3, List.all_cons, List.all_cons, h.2, closure_stateless]; rfl

theorem remembered_copy {r : Result} (h : Remembered r) : r.caps.copy = true := by
  rcases r with _ | ⟨c, ne⟩
  · simp [Result.caps, cls]
  · exact h.1

theorem assignOk_iff (r : Result) : assignOk r = true ↔ Remembered r := by
  rcases r with _ | ⟨c, ne⟩
  · simp [assignOk, Remembered, Result.comparable, Result.caps, cls]
  · simp only [assignOk, Remembered, Result.comparable, Result.caps, Bool.and_eq_true]
    exact ⟨fun ⟨⟨a, b⟩, c⟩ => ⟨b, c, a⟩, fun ⟨b, c, a⟩ => ⟨⟨a, b⟩, c⟩⟩

theorem detailLazyOk_iff (ms : Bool) (f : Caps) (r : Result) (deps vs : List Caps) : detailLazyOk ms f r deps vs = true ↔
    Kept f ∧ (∀ d ∈ deps, Kept d) ∧ (∀ v ∈ vs, v.copy = true) ∧ Remembered r := by
  simp only [detailLazyOk, Bool.and_eq_true, bindOk_iff, assignOk_iff, param, List.all_eq_true]
  constructor
  · intro h
    exact ⟨h.1.1.1.1.1.1.2.1 f (by simp), fun d hd => h.1.1.1.1.1.1.2.1 d (by simp [hd]), h.1.1.2, h.2⟩
  · intro ⟨h1, h2, h3, h4⟩
    have hr := remembered_copy h4
    refine ⟨⟨⟨⟨⟨⟨⟨⟨rfl, hr⟩, ?_, .inr ⟨?_, fun _ => ?_⟩⟩, ?_⟩, h1.1⟩, fun d hd => (h2 d hd).1⟩, h3⟩, fun v hv => by simp [h3 v hv]⟩, h4⟩
    · intro v hv
      rcases List.mem_cons.1 hv with rfl | hv
      · exact h1
      · exact h2 v hv
    all_goals simp [closure, optional, hr]

theorem wrapOk_iff (ms : Bool) (f : Caps) (args : List Caps) : wrapOk ms f args = true ↔ Kept f ∧ ∀ a ∈ args, a.copy = true := by
  simp only [wrapOk, Bool.and_eq_true, bindOk_iff, param, List.all_eq_true]
  constructor
  · intro h
    exact ⟨h.1.1.2.1 f (by simp), h.2⟩
  · intro h
    refine ⟨⟨⟨h.1.1, ?_, .inl (by simp [closure])⟩, h.1.1⟩, h.2⟩
    simpa using h.1

theorem lazyValueOk_iff (ms : Bool) (v : Caps) : lazyValueOk ms v boolConstant = true ↔ Kept v := by
  simp only [lazyValueOk, Bool.and_eq_true, bindOk_iff, param]
  constructor
  · intro h
    exact h.1.1.1 v (by simp)
  · intro h
    refine ⟨⟨⟨?_, .inl (by simp [closure])⟩, h.1⟩, by simp [boolConstant, cls]⟩
    intro w hw
    simp only [List.mem_cons, List.not_mem_nil, or_false] at hw
    rcases hw with rfl | rfl
    · exact h
    · exact ⟨by simp [boolConstant, cls], .inl (by simp [boolConstant, cls])⟩

theorem int_kept : Kept int := ⟨rfl, .inr rfl⟩

theorem unwrapOk_iff (ms : Bool) (f v : Caps) : unwrapOk ms f v = true ↔ Kept f ∧ v.copy = true := by
  simp only [unwrapOk, Bool.and_eq_true, bindOk_iff, param]
  constructor
  · intro h
    exact ⟨h.1.1.1.2.1 f (by simp), h.2⟩
  · intro h
    have hb := bound_kept ms (closure false []) [f] stateless_kept.1 (by simpa using h.1.1)
    refine ⟨⟨⟨⟨h.1.1, ?_, .inl (by simp [closure])⟩, ?_⟩, h.1.1⟩, h.2⟩
    · simpa using h.1
    · simp only [makeable, List.all_cons, List.all_nil, Bool.and_true, hb.1, hb.2, Bool.or_true, Bool.true_and]
      simp [closure]

mutual
theorem Given.fit_copy (ms : Bool) : ∀ d : Given, d.Fit → Kept (Spc.dep ms int d.tree) ∧ d.valueType.copy = true
  | .value v, h => by
    rw [Given.Fit] at h
    exact ⟨lazyValue_kept ms v boolConstant h.1 (by simp [boolConstant, cls]), h.1⟩
  | .function f r, h => by
    rw [Given.Fit] at h
    have hr := remembered_copy h.2.1
    refine ⟨detailLazy_kept ms _ _ _ (wrapped_kept ms f h.1.1).1 hr ?_, hr⟩
    intro d hd
    simp only [List.mem_cons, List.not_mem_nil, or_false] at hd
    subst hd
    exact (lazyValue_kept ms int boolConstant rfl (by simp [boolConstant, cls])).1
  | .lazy f r ds, h => by
    rw [Given.Fit] at h
    have hr := remembered_copy h.2.1
    refine ⟨?_, hr⟩
    rw [Given.tree, Spc.dep]
    exact wrapped_kept ms _ (unwrapValue_kept ms _ (detailLazy_kept ms _ _ _ (wrapped_kept ms f h.1.1).1 hr fun d hd => ((Given.fitAll_copy ms ds h.2.2).1 d hd).1).1).1
theorem Given.fitAll_copy (ms : Bool) : ∀ ds : List Given, Given.FitAll ds → (∀ d ∈ Spc.deps ms int (Given.trees ds), Kept d) ∧ ∀ v ∈ Given.valueTypes ds, v.copy = true
  | [], _ => by simp [Given.trees, Spc.deps, Given.valueTypes]
  | d :: ds, h => by
    rw [Given.FitAll] at h
    have h1 := Given.fit_copy ms d h.1
    have h2 := Given.fitAll_copy ms ds h.2
    rw [Given.trees, Spc.deps, Given.valueTypes]
    refine ⟨?_, ?_⟩
    · intro x hx
      rcases List.mem_cons.1 hx with rfl | hx
      · exact h1.1
      · exact h2.1 x hx
    · intro x hx
      rcases List.mem_cons.1 hx with rfl | hx
      · exact h1.2
      · exact h2.2 x hx
end

mutual
theorem Given.ok_iff (ms : Bool) : ∀ d : Given, d.ok ms = true ↔ d.Fit
  | .value v => by
    simp only [Given.ok, Given.Fit, Bool.and_eq_true, lazyValueOk_iff, param]
    exact ⟨fun h => h.2, fun h => ⟨h.1, h⟩⟩
  | .function f r => by
    simp only [Given.ok, Given.Fit, Bool.and_eq_true, lazyValueOk_iff, detailLazyOk_iff, bindOk_iff, param]
    constructor
    · intro h
      refine ⟨h.1.1.1.2.1 f (by simp), h.2.2.2.2, ?_⟩
      rcases r with _ | _
      · exact absurd h.1.1.1.1.1 (by simp)
      · simp
    · rintro ⟨h1, h2, h3⟩
      refine ⟨⟨⟨⟨⟨?_, h1.1⟩, by simpa using h1, .inl (by simp [closure])⟩, h1.1⟩, int_kept⟩, wrapped_kept ms f h1.1, ?_, by simp [int], h2⟩
      · rcases r with _ | _
        · exact absurd rfl h3
        · rfl
      · intro d hd
        simp only [List.mem_cons, List.not_mem_nil, or_false] at hd
        subst hd
        exact lazyValue_kept ms int boolConstant rfl (by simp [boolConstant, cls])
  | .lazy f r ds => by
    simp only [Given.ok, Given.Fit, Bool.and_eq_true, wrapOk_iff, detailLazyOk_iff, unwrapOk_iff, Given.oks_iff ms ds]
    constructor
    · intro h
      exact ⟨h.1.1.1.1.1, h.1.1.2.2.2.2, h.1.1.1.2⟩
    · intro h
      obtain ⟨h1, h2⟩ := Given.fitAll_copy ms ds h.2.2
      have hr := remembered_copy h.2.1
      have hl := detailLazy_kept ms (wrapped ms f) r.caps (Spc.deps ms int (Given.trees ds)) (wrapped_kept ms f h.1.1).1 hr fun d hd => (h1 d hd).1
      exact ⟨⟨⟨⟨⟨h.1, h2⟩, h.2.2⟩, wrapped_kept ms f h.1.1, h1, h2, h.2.1⟩, hl, hr⟩, unwrapValue_kept ms _ hl.1, by simp⟩
theorem Given.oks_iff (ms : Bool) : ∀ ds : List Given, Given.oks ms ds = true ↔ Given.FitAll ds
  | [] => by simp [Given.oks, Given.FitAll]
  | d :: ds => by
    simp only [Given.oks, Given.FitAll, Bool.and_eq_true, Given.ok_iff ms d, Given.oks_iff ms ds]
    refine ⟨fun h => ⟨h.1.1, h.2⟩, fun h => ⟨⟨h.1, ?_⟩, h.2⟩⟩
    rcases d with v | ⟨f, r⟩ | ⟨f, r, es⟩
    · rfl
    · rfl
    · exact (Given.fit_copy ms _ h.1).1.1
end

/-! ### C94 -/

/-- **C94**: `lazy(f, deps...)` compiles, as far as it depends on what can be copied, moved, assigned and compared, exactly if all functions and values it contains can be copied (and their move
constructors are not deleted, unless they are empty), and all results, its own and those of functions and lazy functions among the dependencies, are `void` or can be copied, assigned and compared;
those of plain functions not `void`. Values need neither assignment nor comparison. With both variants of overload.h. -/
theorem C94_exact (ms : Bool) (f : Caps) (r : Result) (ds : List Given) : lazyOk ms f r ds = true ↔ Kept f ∧ Remembered r ∧ Given.FitAll ds := by
  rw [lazyOk, Given.ok_iff, Given.Fit]

/-- What `std::regular` types can do. -/
def regular : Caps := ⟨false, true, true, true, true, true⟩
/-- A type like `std::unique_ptr`. -/
def movable : Caps := ⟨false, true, false, true, false, true⟩
/-- A class with a const member. -/
def constant : Caps := ⟨false, true, true, true, false, false⟩

-- a function returning `void`, of a value that can be neither assigned nor compared and of a lazy function of a captureless lambda
example (ms : Bool) : lazyOk ms regular .void [.value constant, .lazy (closure false []) (.object regular true) []] = true := by
  rw [C94_exact]
  simp [Kept, Remembered, Given.FitAll, Given.Fit, regular, constant, closure]

/-- **C94**, as one would like it, is false: it is not enough that a function can be called and its result be moved or copied. A result that can only be moved, one that cannot be assigned, and one
without `operator!=` are rejected, however simple the function and its dependencies. -/
theorem C94_rejected (ms : Bool) (f c : Caps) (ne : Bool) (ds : List Given) (h : c.copy = false ∨ c.copyAssign = false ∨ ne = false) : lazyOk ms f (.object c ne) ds = false := by
  rw [Bool.eq_false_iff]
  intro h'
  obtain ⟨-, h1, -⟩ := (C94_exact ms f _ ds).1 h'
  obtain ⟨a, b, e⟩ := h1
  rcases h with h | h | h
  · rw [a] at h; cases h
  · rw [b] at h; cases h
  · rw [e] at h; cases h

example : lazyOk false (closure false []) (.object movable true) [] = false ∧ lazyOk false (closure false []) (.object constant true) [] = false ∧
    lazyOk false (closure false []) (.object regular false) [] = false :=
  ⟨C94_rejected _ _ _ _ _ (.inl rfl), C94_rejected _ _ _ _ _ (.inr (.inl rfl)), C94_rejected _ _ _ _ _ (.inr (.inr rfl))⟩

/-- **C94**: a plain function that returns `void` cannot be a dependency, although a lazy function of it can. -/
theorem C94_void (ms : Bool) (f g : Caps) (r : Result) (ds : List Given) (hg : Kept g) :
    lazyOk ms f r (.function g .void :: ds) = false ∧ lazyOk ms g .void [] = true ∧ (lazyOk ms f r ds = true → lazyOk ms f r (.lazy g .void [] :: ds) = true) := by
  refine ⟨?_, (C94_exact ..).2 ⟨hg, trivial, trivial⟩, fun h => ?_⟩
  · rw [Bool.eq_false_iff]
    intro h
    exact ((C94_exact ..).1 h).2.2.1.2.2 rfl
  · obtain ⟨h1, h2, h3⟩ := (C94_exact ..).1 h
    exact (C94_exact ..).2 ⟨h1, h2, ⟨hg, trivial, trivial⟩, h3⟩

example : lazyOk true regular (.object regular true) [.function regular .void] = false := (C94_void true _ regular _ _ ⟨rfl, .inr rfl⟩).1

/-- **C94**: what can be made, can be copied and moved, and so be a dependency of another. -/
theorem C94_usable (ms : Bool) (f : Caps) (r : Result) (ds : List Given) (h : lazyOk ms f r ds = true) :
    (lazy ms int f r.caps (Given.trees ds)).copy = true ∧ (lazy ms int f r.caps (Given.trees ds)).move = true ∧
      ∀ g : Caps, Kept g → ∀ s, Remembered s → lazyOk ms g s [.lazy f r ds] = true := by
  have hf : (Given.lazy f r ds).Fit := (Given.ok_iff ms _).1 h
  have hk := (Given.fit_copy ms _ hf).1
  refine ⟨hk.1, ?_, fun g hg s hs => (C94_exact ms g s _).2 ⟨hg, hs, hf, trivial⟩⟩
  rcases hk.2 with h | h
  · rw [Given.tree, dep_nonempty] at h
    cases h
  · exact h

example : (lazy false int regular (Result.object regular true).caps (Given.trees [.value constant])).copy = true :=
  (C94_usable false regular (.object regular true) [.value constant] ((C94_exact ..).2 (by simp [Kept, Remembered, Given.FitAll, Given.Fit, regular, constant]))).1

end Pigro.Spc
