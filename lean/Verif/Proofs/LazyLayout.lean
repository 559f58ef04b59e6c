import Verif.Proofs.LayoutSpec
import Verif.Spec.LazyLayout
/-!
# Layout of lazy functions

No two classes clash in a lazy function: types are compared by a weight, which is larger for a class than for the types it is made from.
-/
namespace Pigro.Lay
variable {U N : Type}

/-! ### Names of the subobjects -/

theorem placeBase_names [DecidableEq N] (p : Progress N) (d : Layout N) :
    ∀ e ∈ (placeBase p d).placed, e ∈ p.placed ∨ ∃ e' ∈ d.empties, e'.1 = e.1 := by
  intro e he
  simp only [placeBase] at he
  split at he <;>
  · simp only [List.mem_append, List.mem_map] at he
    rcases he with he | ⟨e', h1, h2⟩
    · exact .inl he
    · exact .inr ⟨e', h1, by rw [← h2]⟩

theorem placeMember_names [DecidableEq N] (p : Progress N) (d : Layout N) :
    ∀ e ∈ (placeMember p d).placed, e ∈ p.placed ∨ ∃ e' ∈ d.empties, e'.1 = e.1 := by
  intro e he
  simp only [placeMember, List.mem_append, List.mem_map] at he
  rcases he with he | ⟨e', h1, h2⟩
  · exact .inl he
  · exact .inr ⟨e', h1, by rw [← h2]⟩

theorem foldl_names [DecidableEq N] (f : Progress N → Layout N → Progress N)
    (hf : ∀ p d, ∀ e ∈ (f p d).placed, e ∈ p.placed ∨ ∃ e' ∈ d.empties, e'.1 = e.1) (ds : List (Layout N)) :
    ∀ p, ∀ e ∈ (ds.foldl f p).placed, e ∈ p.placed ∨ ∃ d ∈ ds, ∃ e' ∈ d.empties, e'.1 = e.1 := by
  induction ds with
  | nil => intro p e he; exact .inl he
  | cons d ds ih =>
    intro p e he
    rcases ih (f p d) e he with h | ⟨d', h1, h2⟩
    · rcases hf p d e h with h | h
      · exact .inl h
      · exact .inr ⟨d, by simp, h⟩
    · exact .inr ⟨d', by simp [h1], h2⟩

/-- The subobjects of a class are itself and those of its bases and members. -/
theorem classLayout_names [DecidableEq N] (name : N) (bases members : List (Layout N)) :
    ∀ e ∈ (classLayout name bases members).empties, e.1 = name ∨ ∃ d ∈ bases ++ members, ∃ e' ∈ d.empties, e'.1 = e.1 := by
  intro e he
  have key : ∀ e ∈ (members.foldl placeMember (bases.foldl placeBase ⟨0, 0, 1, []⟩)).placed,
      ∃ d ∈ bases ++ members, ∃ e' ∈ d.empties, e'.1 = e.1 := by
    intro e he
    rcases foldl_names placeMember placeMember_names members _ e he with h | ⟨d, h1, h2⟩
    · rcases foldl_names placeBase placeBase_names bases _ e h with h | ⟨d, h1, h2⟩
      · simp at h
      · exact ⟨d, by simp [h1], h2⟩
    · exact ⟨d, by simp [h1], h2⟩
  simp only [classLayout] at he
  split at he
  · rcases List.mem_cons.1 he with rfl | he
    · exact .inl rfl
    · exact .inr (key e he)
  · exact .inr (key e he)

/-! ### Weights -/

/-- Larger for a class than for everything in it. -/
def LTy.weight : LTy U → Nat
  | .user _ => 0
  | .int => 0
  | .boolConstant _ => 0
  | .optionalRegularVoid => 0
  | .nil => 0
  | .cons t ts => 1 + t.weight + ts.weight
  | .lam .unwrapGet ts => 20 + 2 * ts.weight
  | .lam _ ts => 1 + ts.weight
  | .tuple ts => 1 + ts.weight
  | .bound _ f t => 1 + f.weight + t.weight
  | .unwrap f => 30 + 2 * f.weight
  | .unwrapOverload f => 30 + 2 * f.weight

theorem weight_pack {t : LTy U} {ts : List (LTy U)} (h : t ∈ ts) : t.weight < (pack ts).weight := by
  induction ts with
  | nil => simp at h
  | cons a ts ih =>
    simp only [pack, LTy.weight]
    rcases List.mem_cons.1 h with rfl | h
    · omega
    · have := ih h; omega

/-- The types in the name of a subobject of a class of weight `w`. -/
def Low (w : Nat) : Name (LTy U) → Prop
  | .user t => t.weight ≤ w
  | .emptyElem _ t => t.weight < w
  | .constGet _ t => t.weight < w
  | .generic _ f t => f.weight < w ∧ t.weight < w
  | _ => True

theorem Low.mono {w w' : Nat} (h : w ≤ w') {n : Name (LTy U)} (hn : Low w n) : Low w' n := by
  cases n <;> simp only [Low] at hn ⊢ <;> omega

/-- What is needed of a part for using it in another one. -/
structure Tame (p : Part (LTy U)) : Prop where
  proper : p.layout.empty = true ∨ p.layout.Proper
  low : ∀ e ∈ p.layout.empties, Low p.ty.weight e.1

variable [DecidableEq U]

omit [DecidableEq U] in
theorem Tame.own {p : Part (LTy U)} (h : Tame p) (i : Nat) : (.constGet i p.ty, 0) ∉ p.layout.empties := by
  intro hm
  have := h.low _ hm
  simp only [Low] at this
  omega

/-- Names in the class of an element. -/
theorem elementLayout_low (i w : Nat) (p : Part (LTy U)) (h : Tame p) (hw : p.ty.weight < w) :
    ∀ e ∈ (elementLayout i p).empties, Low w e.1 := by
  intro e he
  unfold elementLayout at he
  split at he
  · rcases classLayout_names _ _ _ e he with h1 | ⟨d, h1, -⟩
    · rw [h1]; exact hw
    · simp at h1
  · rcases classLayout_names _ _ _ e he with h1 | ⟨d, h1, e1, h2, h3⟩
    · rw [h1]; trivial
    · simp only [List.append_nil, List.mem_cons, List.not_mem_nil, or_false] at h1
      rw [← h3]
      rcases h1 with rfl | rfl
      · rcases classLayout_names _ _ _ e1 h2 with h4 | ⟨d, h4, -⟩
        · rw [h4]; exact hw
        · simp at h4
      · rcases classLayout_names _ _ _ e1 h2 with h4 | ⟨d, h4, e2, h5, h6⟩
        · rw [h4]; trivial
        · simp only [List.nil_append, List.mem_singleton] at h4
          subst h4
          rw [← h6]
          rcases classLayout_names _ _ _ e2 h5 with h7 | ⟨d, h7, e3, h8, h9⟩
          · rw [h7]; trivial
          · simp only [List.nil_append, List.mem_singleton] at h7
            subst h7
            rw [← h9]
            exact (h.low e3 h8).mono (by omega)

/-- Names in an overload set. -/
theorem overloadLayout_low (msvc : Bool) (b : Option Bool) (ts : List (LTy U)) (fs : List (Lt U)) (w : Nat)
    (h : ∀ d ∈ fs, ∀ e ∈ d.empties, Low w e.1) : ∀ e ∈ (overloadLayout msvc b ts fs).empties, Low w e.1 := by
  intro e he
  cases msvc
  · rw [overloadLayout, if_neg (by simp)] at he
    rcases classLayout_names (.overload b ts) fs [] e he with h1 | ⟨d, h1, e1, h2, h3⟩
    · rw [h1]; trivial
    · rw [← h3]; exact h d (by simpa using h1) e1 h2
  · rw [overloadLayout, if_pos rfl] at he
    rcases classLayout_names _ _ _ e he with h1 | ⟨d, h1, e1, h2, h3⟩
    · rw [h1]; trivial
    · simp only [List.append_nil, List.mem_singleton] at h1
      subst h1
      rw [← h3]
      rcases classLayout_names _ _ _ e1 h2 with h4 | ⟨d, h4, e2, h5, h6⟩
      · rw [h4]; trivial
      · rw [← h6]
        refine h d ?_ e2 h5
        rw [List.append_nil, partition_spec] at h4
        rcases List.mem_append.1 h4 with h4 | h4 <;> exact (List.mem_filter.1 h4).1

theorem classLayout_low (name : Name (LTy U)) (d : Lt U) (w : Nat) (hn : Low w name) (h : ∀ e ∈ d.empties, Low w e.1) :
    ∀ e ∈ (classLayout name [d] []).empties, Low w e.1 := by
  intro e he
  rcases classLayout_names _ _ _ e he with h1 | ⟨d', h1, e1, h2, h3⟩
  · rw [h1]; exact hn
  · simp only [List.append_nil, List.mem_singleton] at h1
    subst h1
    rw [← h3]
    exact h e1 h2

/-! ### What the parts take -/

theorem foot_solid (ds : List (Layout N)) : (ds.map Layout.foot).filterMap id = solid ds := by
  induction ds with
  | nil => rfl
  | cons d ds ih =>
    cases h : d.empty
    · simp only [List.map_cons, Layout.foot, h, Bool.false_eq_true, if_false, solid, List.filter_cons, Bool.not_false, if_true]
      simp only [List.filterMap_cons, id]
      rw [ih]; rfl
    · simp only [List.map_cons, Layout.foot, h, if_true, solid, List.filter_cons, Bool.not_true, Bool.false_eq_true, if_false]
      simp only [List.filterMap_cons, id]
      rw [ih]; rfl

theorem structOf_foot (ds : List (Layout N)) :
    structOf (ds.map Layout.foot) = if ds.all (·.empty) then none else some (structSize (solid ds), strictest (solid ds)) := by
  simp only [structOf, foot_solid, solid_empty]

/-- A struct of one member takes what the member takes. -/
theorem structOf_one {d : Layout N} (h : d.empty = true ∨ d.Proper) : structOf [d.foot] = d.foot := by
  rcases h with h | ⟨h1, h2, h3, h4, -⟩
  · simp [Layout.foot, h, structOf]
  · simp only [Layout.foot, h1, structOf, Bool.false_eq_true, if_false, List.filterMap_cons, id, List.filterMap_nil, reduceCtorEq, structSize, strictest,
      membersEnd, List.foldl_cons, List.foldl_nil, Nat.zero_add]
    rw [padding_zero 0 _ (Nat.dvd_zero _), Nat.zero_add, Nat.max_eq_right (by omega : 1 ≤ d.align), padding_zero _ _ h4]
    rfl

theorem structOf_none (ms : List Foot) : structOf (none :: ms) = structOf ms := by
  simp [structOf]

theorem structOf_none' (m : Foot) : structOf [m, none] = structOf [m] := by
  cases m <;> simp [structOf]

/-- A `compressed_tuple`. -/
theorem tuplePart_spec (msvc : Bool) (ps : List (Part (LTy U))) (hp : ∀ p ∈ ps, Tame p)
    (hclash : ∀ f, ps.find? (! ·.layout.empty) = some f → ∀ (i : Nat) (q : Part (LTy U)), ps[i]? = some q → q.layout.empty = true →
      (.emptyElem i q.ty, 0) ∉ f.layout.empties) :
    Tame (tuplePart msvc ps) ∧ (tuplePart msvc ps).layout.foot = structOf (ps.map (·.layout.foot)) ∧
    ∀ i x, (tuplePart msvc ps).layout.empty = false → (.emptyElem i x, 0) ∈ (tuplePart msvc ps).layout.empties →
      (∃ q ∈ ps, q.layout.empty = true ∧ x = q.ty) ∨ ∃ f ∈ ps, f.layout.empty = false ∧ (.emptyElem i x, 0) ∈ f.layout.empties := by
  obtain ⟨h1, h2, h3, h4⟩ := tupleLayout_spec msvc ps (fun p h => (hp p h).proper) (fun i p h => (hp p (List.mem_of_getElem? h)).own i) hclash
  refine ⟨⟨h3, ?_⟩, ?_, ?_⟩
  rotate_left 2
  · intro i x he hx
    rcases h4 _ he hx with ⟨j, q, h5, h6, h7⟩ | ⟨j, f, h5, h6, h7 | h7⟩
    · simp only [Name.emptyElem.injEq] at h7
      exact .inl ⟨q, List.mem_of_getElem? h5, h6, h7.2⟩
    · simp at h7
    · exact .inr ⟨f, List.mem_of_getElem? h5, by have := List.find?_some h6; simpa using this, h7⟩
  · refine classLayout_low _ _ _ trivial (classLayout_low _ _ _ trivial (overloadLayout_low _ _ _ _ _ ?_))
    intro d hd
    simp only [List.mem_map] at hd
    obtain ⟨⟨p, i⟩, hx, rfl⟩ := hd
    have hm : p ∈ ps := List.mem_of_getElem? (List.mk_mem_zipIdx_iff_getElem?.1 hx)
    refine elementLayout_low _ _ _ (hp p hm) ?_
    have : p.ty ∈ ps.map (·.ty) := List.mem_map.2 ⟨p, hm, rfl⟩
    have := weight_pack this
    simp only [tuplePart, LTy.weight]
    omega
  · have := structOf_foot (ps.map (·.layout))
    rw [List.map_map] at this
    rw [show (ps.map (·.layout.foot)) = ps.map (Layout.foot ∘ (·.layout)) from rfl, this]
    simp only [Layout.foot, tuplePart, tupleLayout_empty, List.all_map, Function.comp_def]
    rw [h1, h2]

/-- A bound callable. -/
theorem boundPart_spec (msvc back : Bool) (f t : Part (LTy U)) (hf : Tame f) (ht : Tame t) (hw : t.ty.weight ≤ f.ty.weight)
    (hu : f.layout.empty = false → ∀ e ∈ f.layout.empties, ∃ t, e.1 = .user t) :
    Tame (boundPart msvc back f t) ∧ (boundPart msvc back f t).layout.foot = structOf [f.layout.foot, t.layout.foot] ∧
    (boundPart msvc back f t).layout.nvsize = max (membersEnd (solid [f.layout, t.layout]) 0) 1 ∧
    ∀ i x, (boundPart msvc back f t).layout.empty = false → (.emptyElem i x, 0) ∈ (boundPart msvc back f t).layout.empties →
      x = f.ty ∨ x = t.ty ∨ (f.layout.empty = true ∧ (.emptyElem i x, 0) ∈ t.layout.empties) := by
  have hcl : ∀ d, [f, t].find? (! ·.layout.empty) = some d → (d = f ∧ f.layout.empty = false) ∨ (d = t ∧ f.layout.empty = true) := by
    intro d hd
    cases h : f.layout.empty
    · simp only [List.find?_cons, h, Bool.not_false, Option.some.injEq] at hd
      exact .inl ⟨hd.symm, rfl⟩
    · simp only [List.find?_cons, h, Bool.not_true] at hd
      cases h' : t.layout.empty
      · simp only [h', Bool.not_false, Option.some.injEq] at hd
        exact .inr ⟨hd.symm, rfl⟩
      · simp [h'] at hd
  obtain ⟨h1, h2, h3, h4, h5⟩ := boundLayout_spec msvc back f t hf.proper ht.proper (hf.own 0) (ht.own 1) (by
    intro d hd
    rcases hcl d hd with ⟨rfl, he⟩ | ⟨rfl, he⟩
    · refine ⟨?_, by simp [he], ?_⟩
      · intro h; obtain ⟨t, h⟩ := hu he _ h; simp at h
      · intro _ h; obtain ⟨t, h⟩ := hu he _ h; simp at h
    · refine ⟨?_, ?_, ?_⟩
      · intro h
        have := ht.low _ h
        simp only [Low] at this
        omega
      · intro _ h
        have := ht.low _ h
        simp only [Low] at this
        omega
      · intro _ h
        have := ht.low _ h
        simp only [Low] at this
        omega)
  refine ⟨⟨h4, ?_⟩, ?_, h3, ?_⟩
  · have hlt : f.ty.weight < (boundPart msvc back f t).ty.weight ∧ t.ty.weight < (boundPart msvc back f t).ty.weight := by
      simp only [boundPart, LTy.weight]; omega
    refine classLayout_low _ _ _ trivial (overloadLayout_low _ _ _ _ _ ?_)
    intro d hd
    simp only [List.mem_cons, List.not_mem_nil, or_false] at hd
    rcases hd with rfl | rfl | rfl
    · exact elementLayout_low _ _ _ hf hlt.1
    · exact elementLayout_low _ _ _ ht hlt.2
    · rw [classLayout_nil]
      intro e he
      rw [List.mem_singleton] at he
      rw [he]
      exact hlt
  · have := structOf_foot [f.layout, t.layout]
    simp only [List.map_cons, List.map_nil, List.all_cons, List.all_nil, Bool.and_true] at this
    rw [this]
    simp only [Layout.foot, boundPart, boundLayout_empty]
    rw [h1, h2]
  · intro i x he hx
    rcases h5 _ he hx with h | ⟨-, h⟩ | ⟨-, h⟩ | ⟨j, d, hd, h | h⟩
    · simp at h
    · simp only [Name.emptyElem.injEq] at h; exact .inl h.2
    · simp only [Name.emptyElem.injEq] at h; exact .inr (.inl h.2)
    · simp at h
    · rcases hcl d hd with ⟨rfl, he'⟩ | ⟨rfl, he'⟩
      · obtain ⟨t, h⟩ := hu he' _ h; simp at h
      · exact .inr (.inr ⟨he', h⟩)

/-! ### The functions of lazy.h and regular_void.h -/

/-- The type of a bound callable. -/
def LTy.isBound : LTy U → Bool
  | .bound .. => true
  | _ => false

/-- No closure standing for an empty bound callable is at the start. -/
def Clean (p : Part (LTy U)) : Prop :=
  p.layout.empty = false → ∀ i x, (.emptyElem i x, 0) ∈ p.layout.empties → x.isBound = false

omit [DecidableEq U] in
theorem foot_empty {d : Lt U} : d.foot = none ↔ d.empty = true := by
  cases h : d.empty <;> simp [Layout.foot, h]

theorem lamPart_tame (k : LamKind) (ts : List (LTy U)) : Tame (lamPart k ts) := by
  refine ⟨.inl (by simp [lamPart, classLayout_nil]), ?_⟩
  intro e he
  simp only [lamPart, classLayout_nil, List.mem_singleton] at he
  rw [he]
  exact Nat.le_refl _

theorem bindLam_spec (msvc back : Bool) (k : LamKind) (hk : k ≠ .unwrapGet) (ps : List (Part (LTy U))) (hp : ∀ p ∈ ps, Tame p ∧ Clean p)
    (hb : ∀ p ∈ ps, p.layout.empty = true → p.ty.isBound = false)
    (hclash : ∀ f, ps.find? (! ·.layout.empty) = some f → ∀ (i : Nat) (q : Part (LTy U)), ps[i]? = some q → q.layout.empty = true →
      (.emptyElem i q.ty, 0) ∉ f.layout.empties) :
    Tame (bindLam msvc back k ps) ∧ Clean (bindLam msvc back k ps) ∧
      (bindLam msvc back k ps).layout.foot = structOf (ps.map (·.layout.foot)) := by
  obtain ⟨t1, t2, t3⟩ := tuplePart_spec msvc ps (fun p h => (hp p h).1) hclash
  have hle : (lamPart k (ps.map (·.ty))).layout.empty = true := by simp [lamPart, classLayout_nil]
  obtain ⟨b1, b2, -, b4⟩ := boundPart_spec msvc back (lamPart k (ps.map (·.ty))) (tuplePart msvc ps) (lamPart_tame _ _) t1
    (by cases k <;> first | exact absurd rfl hk | exact Nat.le_refl _) (by rw [hle]; simp)
  refine ⟨b1, ?_, ?_⟩
  · intro he i x hx
    rcases b4 i x he hx with rfl | rfl | ⟨-, hx⟩
    · rfl
    · rfl
    · have hte : (tuplePart msvc ps).layout.empty = false := by
        have : (boundPart msvc back (lamPart k (ps.map (·.ty))) (tuplePart msvc ps)).layout.empty = false := he
        simp only [boundPart, boundLayout_empty, hle, Bool.true_and] at this
        exact this
      rcases t3 i x hte hx with ⟨q, h1, h2, rfl⟩ | ⟨f, h1, h2, h3⟩
      · exact hb q h1 h2
      · exact (hp f h1).2 h2 i x h3
  · have := b2
    rw [show (lamPart k (ps.map (·.ty))).layout.foot = none from foot_empty.2 hle, structOf_none, structOf_one t1.proper, t2] at this
    exact this

/-- One part. -/
theorem bindLam_one (msvc back : Bool) (k : LamKind) (hk : k ≠ .unwrapGet) (f : Part (LTy U)) (h1 : Tame f) (h2 : Clean f)
    (h3 : f.layout.empty = true → f.ty.isBound = false) :
    Tame (bindLam msvc back k [f]) ∧ Clean (bindLam msvc back k [f]) ∧ (bindLam msvc back k [f]).layout.foot = f.layout.foot := by
  have := bindLam_spec msvc back k hk [f] (by simpa using ⟨h1, h2⟩) (by simpa using h3) (by
    intro g hg i q hq he
    have hq := List.mem_of_getElem? hq
    rw [List.mem_singleton] at hq
    subst hq
    simp [he] at hg)
  rw [List.map_cons, List.map_nil, structOf_one h1.proper] at this
  exact this

/-- `lazy_value` -/
theorem lazyValuePart_spec (msvc : Bool) (v : Part (LTy U)) (c : Bool) (h1 : Tame v) (h2 : ∀ i x, (.emptyElem i x, 0) ∉ v.layout.empties)
    (h3 : v.ty.isBound = false) :
    Tame (lazyValuePart msvc v c) ∧ Clean (lazyValuePart msvc v c) ∧ (lazyValuePart msvc v c).layout.foot = v.layout.foot := by
  have hfe : (flagPart c : Part (LTy U)).layout.empty = true := by simp [flagPart, classLayout_nil]
  have hft : Tame (flagPart c : Part (LTy U)) := by
    refine ⟨.inl hfe, ?_⟩
    intro e he
    simp only [flagPart, classLayout_nil, List.mem_singleton] at he
    rw [he]
    exact Nat.le_refl _
  have := bindLam_spec msvc true .value (by simp) [v, flagPart c] (by
    intro p hp
    simp only [List.mem_cons, List.not_mem_nil, or_false] at hp
    rcases hp with rfl | rfl
    · exact ⟨h1, fun _ i x hx => absurd hx (h2 i x)⟩
    · exact ⟨hft, fun h => by rw [hfe] at h; simp at h⟩) (by
    intro p hp _
    simp only [List.mem_cons, List.not_mem_nil, or_false] at hp
    rcases hp with rfl | rfl
    · exact h3
    · rfl) (by
    intro f hf i q hq he
    have hfm := List.mem_of_find?_eq_some hf
    have hfn : f.layout.empty = false := by have := List.find?_some hf; simpa using this
    simp only [List.mem_cons, List.not_mem_nil, or_false] at hfm
    rcases hfm with rfl | rfl
    · exact h2 i _
    · rw [hfe] at hfn; simp at hfn)
  rw [List.map_cons, List.map_cons, List.map_nil, foot_empty.2 hfe, structOf_none', structOf_one h1.proper] at this
  exact this

/-- `detail::lazy` -/
theorem detailLazyPart_spec (msvc : Bool) (cache : Lt U) (hcache : cache.Proper) (hnames : ∀ e ∈ cache.empties, ∃ v, e.1 = .user (.user v))
    (f : Part (LTy U)) (deps : List (Part (LTy U))) (hp : ∀ p ∈ f :: deps, Tame p ∧ Clean p ∧ (p.layout.empty = true → p.ty.isBound = true)) :
    Tame (detailLazyPart msvc cache f deps) ∧ Clean (detailLazyPart msvc cache f deps) ∧ (detailLazyPart msvc cache f deps).layout.empty = false ∧
      (detailLazyPart msvc cache f deps).layout.foot = structOf [cache.foot, structOf ((f :: deps).map (·.layout.foot))] := by
  obtain ⟨t1, t2, -⟩ := tuplePart_spec msvc (f :: deps) (fun p h => (hp p h).1) (by
    intro g hg i q hq he hn
    have hgn : g.layout.empty = false := by have := List.find?_some hg; simpa using this
    have h1 := (hp g (List.mem_of_find?_eq_some hg)).2.1 hgn i _ hn
    have h2 := (hp q (List.mem_of_getElem? hq)).2.2 he
    rw [h1] at h2
    simp at h2)
  obtain ⟨c1, c2, c3, c4, c5⟩ := hcache
  let ty : LTy U := .lam .core (pack ((f :: deps).map (·.ty)))
  have hcl : classLayout (.user ty) [] [cache] = ⟨cache.size, cache.size, cache.align, false, cache.empties⟩ :=
    classLayout_member _ _ c2 c3 c4
  have hcf : (classLayout (.user ty) [] [cache]).foot = cache.foot := by rw [hcl]; simp [Layout.foot, c1]
  have htame : Tame (⟨ty, classLayout (.user ty) [] [cache]⟩ : Part (LTy U)) := by
    refine ⟨.inr (by rw [hcl]; exact ⟨rfl, c2, c3, c4, c5⟩), ?_⟩
    rw [hcl]
    intro e he
    obtain ⟨v, hv⟩ := hnames e he
    rw [hv]
    exact Nat.zero_le _
  obtain ⟨b1, b2, -, b4⟩ := boundPart_spec msvc true ⟨ty, classLayout (.user ty) [] [cache]⟩ (tuplePart msvc (f :: deps)) htame t1
    (Nat.le_refl _) (by
      intro _ e he
      rw [hcl] at he
      obtain ⟨v, hv⟩ := hnames e he
      exact ⟨_, hv⟩)
  refine ⟨b1, ?_, ?_, ?_⟩
  · intro he i x hx
    rcases b4 i x he hx with rfl | rfl | ⟨h, -⟩
    · rfl
    · rfl
    · rw [hcl] at h; simp at h
  · have : (boundPart msvc true ⟨ty, classLayout (.user ty) [] [cache]⟩ (tuplePart msvc (f :: deps))).layout.empty = false := by
      simp only [boundPart, boundLayout_empty, hcl, Bool.false_and]
    exact this
  · have := b2
    rw [hcf, t2] at this
    exact this

/-- `unwrap_value` -/
theorem unwrapPart_spec (msvc : Bool) (f : Part (LTy U)) (h1 : Tame f) (h2 : Clean f) (h3 : f.layout.empty = false) :
    Tame (unwrapPart msvc f) ∧ Clean (unwrapPart msvc f) ∧ (unwrapPart msvc f).layout.empty = false ∧
      (unwrapPart msvc f).layout.foot = f.layout.foot := by
  obtain ⟨b1, b2, b3⟩ := bindLam_one msvc true .unwrapCall (by simp) f h1 h2 (by simp [h3])
  generalize hb : bindLam msvc true .unwrapCall [f] = b at b1 b2 b3
  have hbe : b.layout.empty = false := by
    rw [Bool.eq_false_iff]
    intro h
    rw [foot_empty.2 h, eq_comm, foot_empty] at b3
    rw [b3] at h3
    simp at h3
  have hbp := b1.proper.resolve_left (by simp [hbe])
  have hfp := h1.proper.resolve_left (by simp [h3])
  have hsz : b.layout.size = f.layout.size ∧ b.layout.align = f.layout.align := by
    simp only [Layout.foot, hbe, h3, Bool.false_eq_true, if_false, Option.some.injEq, Prod.mk.injEq] at b3
    exact b3
  have hnv : b.layout.nvsize = b.layout.size := by
    obtain ⟨t1, t2, -⟩ := tuplePart_spec msvc [f] (by simpa using h1) (by
      intro g hg i q hq he
      have hq := List.mem_of_getElem? hq
      rw [List.mem_singleton] at hq
      subst hq
      simp [he] at hg)
    rw [List.map_cons, List.map_nil, structOf_one h1.proper] at t2
    have hte : (tuplePart msvc [f]).layout.empty = false := by
      rw [Bool.eq_false_iff]
      intro h
      rw [foot_empty.2 h, eq_comm, foot_empty] at t2
      rw [t2] at h3
      simp at h3
    have hts : (tuplePart msvc [f]).layout.size = f.layout.size ∧ (tuplePart msvc [f]).layout.align = f.layout.align := by
      simp only [Layout.foot, hte, h3, Bool.false_eq_true, if_false, Option.some.injEq, Prod.mk.injEq] at t2
      exact t2
    have hle : (lamPart .unwrapCall [f.ty]).layout.empty = true := by simp [lamPart, classLayout_nil]
    obtain ⟨-, -, b5, -⟩ := boundPart_spec msvc true (lamPart .unwrapCall [f.ty]) (tuplePart msvc [f]) (lamPart_tame _ _) t1
      (Nat.le_refl _) (by rw [hle]; simp)
    have hb' : boundPart msvc true (lamPart .unwrapCall [f.ty]) (tuplePart msvc [f]) = b := hb
    rw [hb'] at b5
    rw [b5, hsz.1]
    simp only [solid, List.filter_cons, hle, hte, Bool.not_true, Bool.not_false, Bool.false_eq_true, if_true, if_false, List.filter_nil, List.map_cons,
      List.map_nil, membersEnd, Nat.zero_add, hts.1, hts.2]
    rw [padding_zero 0 _ (Nat.dvd_zero _)]
    have := hfp.2.1
    omega
  have hgl : (lamPart .unwrapGet [f.ty]).layout = (⟨1, 1, 1, true, [(.user (.lam .unwrapGet (pack [f.ty])), 0)]⟩ : Lt U) := by
    simp [lamPart, classLayout_nil]
  have hbw : b.ty.weight = 5 + 2 * f.ty.weight := by
    rw [← hb]
    simp only [bindLam, boundPart, lamPart, tuplePart, List.map_cons, List.map_nil, pack, LTy.weight]
    omega
  have hnot : ((.user (.lam .unwrapGet (pack [f.ty])), 0) : Name (LTy U) × Nat) ∉ b.layout.empties := by
    intro h
    have := b1.low _ h
    simp only [Low, hbw, pack, LTy.weight] at this
    omega
  obtain ⟨o1, o2, o3, o4, o5, o6, o7⟩ := overloadLayout_spec msvc none [.unwrapOverload f.ty] [b.layout, (lamPart .unwrapGet [f.ty]).layout] (by
    intro d hd
    simp only [List.mem_cons, List.not_mem_nil, or_false] at hd
    rcases hd with rfl | rfl
    · exact .inr ⟨hbp, hnv⟩
    · rw [hgl]; exact .inl ⟨rfl, rfl, rfl, by simp⟩) (by
    rw [hgl]
    refine ⟨by simp [hbe], ?_⟩
    intro x hx d hd hde
    simp only [List.find?_cons, hbe, Bool.not_false, Option.some.injEq] at hx
    subst hx
    simp only [List.mem_cons, List.not_mem_nil, or_false] at hd
    rcases hd with rfl | rfl
    · rw [hbe] at hde; simp at hde
    · constructor
      · intro n hn hn'
        simp only [List.mem_singleton, Prod.mk.injEq, and_true] at hn
        subst hn
        exact hnot hn'
      · intro n hn hn'
        simp only [List.mem_singleton, Prod.mk.injEq, and_true] at hn'
        subst hn'
        exact hnot hn)
  generalize ho : overloadLayout msvc none [LTy.unwrapOverload f.ty] [b.layout, (lamPart .unwrapGet [f.ty]).layout] = o at o1 o2 o3 o4 o5 o6 o7
  have hsolid : solid [b.layout, (lamPart .unwrapGet [f.ty]).layout] = [(f.layout.size, f.layout.align)] := by
    rw [hgl]
    simp only [solid, List.filter_cons, hbe, Bool.not_true, Bool.not_false, Bool.false_eq_true, if_true, if_false, List.filter_nil, List.map_cons,
      List.map_nil, hsz.1, hsz.2]
  have hone := structOf_one h1.proper
  simp only [structOf, Layout.foot, h3, Bool.false_eq_true, if_false, List.filterMap_cons, id, List.filterMap_nil, reduceCtorEq, Option.some.injEq,
    Prod.mk.injEq] at hone
  rw [hsolid] at o2 o3
  rw [hone.1] at o2
  rw [hone.2] at o3
  have hoe : o.empty = false := by rw [o6]; simp [hbe]
  obtain ⟨r1, r2, r3, r4, r5⟩ := classLayout_single (.user (.unwrap f.ty)) o o1
  have hu : (unwrapPart msvc f).layout = classLayout (.user (.unwrap f.ty)) [o] [] := by
    rw [← ho, ← hb]; rfl
  rw [hoe, if_neg (by simp)] at r5
  rw [hoe] at r4
  refine ⟨⟨?_, ?_⟩, ?_, by rw [hu, r4], ?_⟩
  · rw [hu]
    exact chain_proper r1 (by intro e he; rw [r5] at he; rw [r2]; exact o4 e he)
  · rw [hu, r5, ← ho]
    refine overloadLayout_low _ _ _ _ _ ?_
    intro d hd e he
    have hw : (unwrapPart msvc f).ty.weight = 30 + 2 * f.ty.weight := rfl
    rw [hw]
    simp only [List.mem_cons, List.not_mem_nil, or_false] at hd
    rcases hd with rfl | rfl
    · exact (b1.low e he).mono (by omega)
    · rw [hgl, List.mem_singleton] at he
      rw [he]
      simp only [Low, pack, LTy.weight]
      omega
  · intro _ i x hx
    rw [hu, r5] at hx
    rcases o7 _ hoe hx with ⟨d, hd, hde, hn⟩ | ⟨x', hx', hn⟩
    · simp only [List.mem_cons, List.not_mem_nil, or_false] at hd
      rcases hd with rfl | rfl
      · rw [hbe] at hde; simp at hde
      · rw [hgl, List.mem_singleton] at hn; simp at hn
    · simp only [List.find?_cons, hbe, Bool.not_false, Option.some.injEq] at hx'
      subst hx'
      exact b2 hbe i x hn
  · rw [hu, Layout.foot, r4, if_neg (by simp), r2, r3, o2, o3, Layout.foot, h3, if_neg (by simp)]

/-! ### All lazy functions -/

omit [DecidableEq U] in
theorem Types.Plain.part_tame {Γ : Types U} (h : Γ.Plain) (u : U) : Tame (Γ.part u) := by
  refine ⟨h.layout u, ?_⟩
  intro e he
  obtain ⟨v, hv⟩ := h.names u e (List.mem_append_left _ he)
  rw [hv]
  exact Nat.zero_le _

omit [DecidableEq U] in
theorem Types.Plain.part_names {Γ : Types U} (h : Γ.Plain) (u : U) (i : Nat) (x : LTy U) : (.emptyElem i x, 0) ∉ (Γ.part u).layout.empties := by
  intro he
  obtain ⟨v, hv⟩ := h.names u _ (List.mem_append_left _ he)
  simp at hv

theorem Types.Plain.cache_spec {Γ : Types U} (h : Γ.Plain) (r : Option U) :
    (Γ.cache r).Proper ∧ (∀ e ∈ (Γ.cache r).empties, ∃ v, e.1 = .user (.user v)) ∧
      (Γ.cache r).foot = cacheFoot (fun u => (Γ.optional u).foot) r := by
  cases r with
  | some u => exact ⟨h.optional u, fun e he => h.names u e (List.mem_append_right _ he), rfl⟩
  | none =>
    have : Γ.cache none = ⟨1, 1, 1, false, []⟩ := by
      rw [Types.cache, classLayout_member _ _ (by simp [scalar]) (by simp [scalar]) (by simp [scalar])]
      rfl
    rw [this]
    exact ⟨⟨rfl, by simp, by simp, by simp, by simp⟩, by simp, rfl⟩

mutual
/-- The layout of a lazy function. -/
theorem depPart_spec {Γ : Types U} (h : Γ.Plain) (msvc : Bool) : ∀ t : LTree U,
    Tame (depPart Γ msvc t) ∧ Clean (depPart Γ msvc t) ∧ ((depPart Γ msvc t).layout.empty = true → (depPart Γ msvc t).ty.isBound = true) ∧
      (depPart Γ msvc t).layout.foot = t.foot (fun u => (Γ.layout u).foot) (fun u => (Γ.optional u).foot) (some (4, 4))
  | .value v => by
    obtain ⟨h1, h2, h3⟩ := lazyValuePart_spec msvc (Γ.part v) false (h.part_tame v) (h.part_names v) rfl
    exact ⟨h1, h2, fun _ => rfl, h3⟩
  | .function f res => by
    obtain ⟨f1, f2, f3⟩ := bindLam_one msvc true .poll (by simp) (Γ.part f) (h.part_tame f) (fun _ i x hx => absurd hx (h.part_names f i x))
      (fun _ => rfl)
    have hint : Tame (intPart : Part (LTy U)) := ⟨.inr ⟨rfl, by simp [intPart, scalar], by simp [intPart, scalar], by simp [intPart, scalar],
      by simp [intPart, scalar]⟩, by simp [intPart, scalar]⟩
    obtain ⟨v1, v2, v3⟩ := lazyValuePart_spec msvc (intPart : Part (LTy U)) true hint (by simp [intPart, scalar]) rfl
    obtain ⟨c1, c2, c3⟩ := h.cache_spec (some res)
    obtain ⟨h1, h2, h3, h4⟩ := detailLazyPart_spec msvc (Γ.cache (some res)) c1 c2 (bindLam msvc true .poll [Γ.part f])
      [lazyValuePart msvc intPart true] (by
        intro p hp
        simp only [List.mem_cons, List.not_mem_nil, or_false] at hp
        rcases hp with rfl | rfl
        · exact ⟨f1, f2, fun _ => rfl⟩
        · exact ⟨v1, v2, fun _ => rfl⟩)
    refine ⟨h1, h2, fun _ => rfl, ?_⟩
    simp only [List.map_cons, List.map_nil, f3, v3, c3] at h4
    rw [depPart, h4]
    rfl
  | .lazy f res deps => by
    obtain ⟨d1, d2⟩ := depParts_spec h msvc deps
    obtain ⟨f1, f2, f3⟩ := bindLam_one msvc false .regularize (by simp) (Γ.part f) (h.part_tame f)
      (fun _ i x hx => absurd hx (h.part_names f i x)) (fun _ => rfl)
    obtain ⟨c1, c2, c3⟩ := h.cache_spec res
    obtain ⟨h1, h2, h3, h4⟩ := detailLazyPart_spec msvc (Γ.cache res) c1 c2 (regularizedPart msvc (Γ.part f)) (depParts Γ msvc deps) (by
        intro p hp
        rcases List.mem_cons.1 hp with rfl | hp
        · exact ⟨f1, f2, fun _ => rfl⟩
        · exact d1 p hp)
    obtain ⟨u1, u2, u3, u4⟩ := unwrapPart_spec msvc _ h1 h2 h3
    obtain ⟨r1, r2, r3⟩ := bindLam_one msvc false .unregularize (by simp) _ u1 u2 (by simp [u3])
    refine ⟨r1, r2, fun _ => rfl, ?_⟩
    rw [depPart, unregularizedPart, r3, u4, h4, c3, List.map_cons, d2, regularizedPart, f3]
    rfl
/-- Several. -/
theorem depParts_spec {Γ : Types U} (h : Γ.Plain) (msvc : Bool) : ∀ ts : List (LTree U),
    (∀ p ∈ depParts Γ msvc ts, Tame p ∧ Clean p ∧ (p.layout.empty = true → p.ty.isBound = true)) ∧
      (depParts Γ msvc ts).map (·.layout.foot) =
        LTree.foots (fun u => (Γ.layout u).foot) (fun u => (Γ.optional u).foot) (some (4, 4)) ts
  | [] => ⟨by simp [depParts], rfl⟩
  | t :: ts => by
    obtain ⟨h1, h2, h3, h4⟩ := depPart_spec h msvc t
    obtain ⟨h5, h6⟩ := depParts_spec h msvc ts
    refine ⟨?_, by rw [depParts, List.map_cons, h4, h6]; rfl⟩
    intro p hp
    rw [depParts, List.mem_cons] at hp
    rcases hp with rfl | hp
    · exact ⟨h1, h2, h3⟩
    · exact h5 p hp
end

end Pigro.Lay
