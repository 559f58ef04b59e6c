import Verif.Model.CallableLayout
import Verif.Spec.CallableLayout
import Verif.Proofs.LayoutSpec
/-!
# Classes with two bases
-/
namespace Pigro.Lay
variable {T N : Type}

/-- An empty class of one byte, or some bytes. -/
structure Layout.Ok (d : Layout N) : Prop where
  align : 0 < d.align
  nvsize : 0 < d.nvsize
  size : d.size = roundUp d.nvsize d.align
  empty : d.empty = true → d.nvsize = 1 ∧ d.align = 1 ∧ ∀ e ∈ d.empties, e.2 = 0

theorem Layout.Ok.size1 {d : Layout N} (h : d.Ok) (he : d.empty = true) : d.size = 1 := by
  rw [h.size, (h.empty he).1, (h.empty he).2.1]; rfl

theorem classLayout_two [DecidableEq N] (name : N) (u r : Layout N) (hu : u.Ok) (hr : r.Ok) (hin : u.empty = false → ∀ e ∈ u.empties, e.2 < u.nvsize)
    (hd : (u.empty || r.empty) = true → ∀ n, (n, 0) ∈ u.empties → (n, 0) ∉ r.empties) :
    let c := classLayout name [u, r] []
    c.Ok ∧ c.data = after u.data r.data ∧ c.empty = (u.empty && r.empty) ∧ ∀ e ∈ c.empties, e.1 = name ∨ (∃ x ∈ u.empties, x.1 = e.1) ∨ ∃ x ∈ r.empties, x.1 = e.1 := by
  have hcf : ∀ off, conflict ([] : List (N × Nat)) u.empties off = false := fun off => conflict_false (by simp)
  have hr0 : ∀ a, 0 < a → roundUp 0 a = 0 := fun a ha => roundUp_dvd 0 _ ha (Nat.dvd_zero _)
  have hmap : ∀ d : Layout N, (d.empties.map fun e => (e.1, e.2 + 0)) = d.empties := by simp
  have ha := hu.align
  have hb := hr.align
  have hn := hu.nvsize
  have hm := hr.nvsize
  intro c
  have hc : c = classLayout name [u, r] [] := rfl
  rcases heu : u.empty with _ | _ <;> rcases her : r.empty with _ | _
  · -- both have data
    have hle := le_roundUp u.nvsize r.align hb
    have hcf2 : conflict u.empties r.empties (roundUp u.nvsize r.align) = false := by
      apply conflict_false
      intro n o he hp
      have := hin heu _ hp
      simp only at this
      omega
    have hcc : c = ⟨roundUp (roundUp u.nvsize r.align + r.nvsize) (max u.align r.align), roundUp u.nvsize r.align + r.nvsize, max u.align r.align, false,
        u.empties ++ r.empties.map fun e => (e.1, e.2 + roundUp u.nvsize r.align)⟩ := by
      rw [hc]
      simp only [classLayout, List.foldl_nil, List.isEmpty_nil, Bool.true_and, List.foldl_cons, placeBase, heu, her, Bool.false_eq_true, if_false,
        search_first _ _ _ _ _ (hcf _), hr0 _ ha, List.nil_append, List.all_cons, List.all_nil, Bool.and_true, Nat.zero_add, hmap, Nat.zero_max,
        search_first _ _ _ _ _ hcf2, Bool.and_self]
      rw [show max (max u.nvsize (roundUp u.nvsize r.align + r.nvsize)) 1 = roundUp u.nvsize r.align + r.nvsize by omega,
        show max (max 1 u.align) r.align = max u.align r.align by omega]
    rw [hcc]
    refine ⟨⟨by simp only; omega, by simp only; omega, rfl, by simp⟩, by simp [Layout.data, heu, her, after], rfl, ?_⟩
    intro e he
    simp only [List.mem_append, List.mem_map] at he
    rcases he with he | ⟨x, hx, rfl⟩
    · exact .inr (.inl ⟨e, he, rfl⟩)
    · exact .inr (.inr ⟨x, hx, rfl⟩)
  · -- only the first has data
    obtain ⟨h1, h2, h3⟩ := hr.empty her
    have hcf2 : conflict u.empties r.empties 0 = false := by
      apply conflict_false
      intro n o he hp
      have := h3 _ he
      simp only at this
      subst this
      exact hd (by simp [her]) n hp he
    have hcc : c = ⟨roundUp u.nvsize u.align, u.nvsize, u.align, false, u.empties ++ r.empties⟩ := by
      rw [hc]
      simp only [classLayout, List.foldl_nil, List.isEmpty_nil, Bool.true_and, List.foldl_cons, placeBase, heu, her, Bool.false_eq_true, if_false, if_true,
        search_first _ _ _ _ _ (hcf _), hr0 _ ha, List.nil_append, List.all_cons, List.all_nil, Bool.and_true, Nat.zero_add, hmap, Nat.zero_max,
        hcf2, hr.size1 her, h2]
      rw [show max (max u.nvsize 1) 1 = u.nvsize by omega, show max (max 1 u.align) 1 = u.align by omega]
    rw [hcc]
    refine ⟨⟨ha, hn, rfl, by simp⟩, by simp [Layout.data, heu, her, after], rfl, ?_⟩
    intro e he
    simp only [List.mem_append] at he
    rcases he with he | he
    · exact .inr (.inl ⟨e, he, rfl⟩)
    · exact .inr (.inr ⟨e, he, rfl⟩)
  · -- only the second has data
    obtain ⟨h1, h2, h3⟩ := hu.empty heu
    have hcf2 : conflict u.empties r.empties 0 = false := by
      apply conflict_false
      intro n o he hp
      have := h3 _ hp
      simp only [Nat.add_zero] at this
      subst this
      exact hd (by simp [heu]) n hp he
    have hcc : c = ⟨roundUp r.nvsize r.align, r.nvsize, r.align, false, u.empties ++ r.empties⟩ := by
      rw [hc]
      simp only [classLayout, List.foldl_nil, List.isEmpty_nil, List.foldl_cons, placeBase, heu, her, Bool.false_eq_true, if_false, if_true,
        hcf, search_first _ _ _ _ _ hcf2, hr0 _ hb, List.nil_append, List.all_cons, List.all_nil, Bool.and_true, Nat.zero_add, hmap, Nat.zero_max,
        hu.size1 heu, h2, Bool.and_false]
      rw [show max (max 1 r.nvsize) 1 = r.nvsize by omega, show max (max 1 1) r.align = r.align by omega]
    rw [hcc]
    refine ⟨⟨hb, hm, rfl, by simp⟩, by simp [Layout.data, heu, her, after], rfl, ?_⟩
    intro e he
    simp only [List.mem_append] at he
    rcases he with he | he
    · exact .inr (.inl ⟨e, he, rfl⟩)
    · exact .inr (.inr ⟨e, he, rfl⟩)
  · -- none
    obtain ⟨h1, h2, h3⟩ := hu.empty heu
    obtain ⟨h4, h5, h6⟩ := hr.empty her
    have hcf2 : conflict u.empties r.empties 0 = false := by
      apply conflict_false
      intro n o he hp
      have := h6 _ he
      simp only at this
      subst this
      exact hd (by simp [her]) n hp he
    have hcc : c = ⟨1, 1, 1, true, (name, 0) :: (u.empties ++ r.empties)⟩ := by
      rw [hc]
      simp only [classLayout, List.foldl_nil, List.isEmpty_nil, List.foldl_cons, placeBase, heu, her, Bool.false_eq_true, if_false, if_true,
        hcf, hcf2, List.nil_append, List.all_cons, List.all_nil, Bool.and_true, Nat.zero_add, hmap, Nat.zero_max,
        hu.size1 heu, hr.size1 her, h2, h5, Nat.max_self]
      rfl
    rw [hcc]
    refine ⟨⟨by simp, by simp, by simp [roundUp], ?_⟩, by simp [Layout.data, heu, her, after], rfl, ?_⟩
    · intro _
      refine ⟨rfl, rfl, fun e he => ?_⟩
      simp only [List.mem_cons, List.mem_append] at he
      rcases he with rfl | he | he
      · rfl
      · exact h3 e he
      · exact h6 e he
    · intro e he
      simp only [List.mem_cons, List.mem_append] at he
      rcases he with rfl | he | he
      · exact .inl rfl
      · exact .inr (.inl ⟨e, he, rfl⟩)
      · exact .inr (.inr ⟨e, he, rfl⟩)

/-- The tag in the name of a class of uncapture.h. -/
def UName.tag : UName T → Nat
  | .user _ => 0
  | .uncaptured _ tag => tag
  | .invocable tag _ => tag

/-- What is asked of a value: it is empty, or a type with some bytes whose empty subobjects are of classes of the user. -/
def UPart.IsValue (v : UPart T) : Prop := v.layout.empty = true ∨ (v.layout.Proper ∧ ∀ e ∈ v.layout.empties, ∃ t, e.1 = .user t)

theorem uncaptureLayout_spec [DecidableEq T] (fTag : Nat) (f : UPart T) (hf : f.layout.Ok) (hft : ∀ e ∈ f.layout.empties, e.1.tag ≤ fTag)
    (vs : List (UPart T)) (hv : ∀ v ∈ vs, v.IsValue)
    (hclash : f.layout.empty = true → ∀ v ∈ vs, v.layout.empty = false → ∀ t, (.user t, 0) ∈ v.layout.empties → (.user t, 0) ∉ f.layout.empties) :
    let c := uncaptureLayout fTag f vs
    c.Ok ∧ c.data = (vs.map fun v => if v.layout.empty then none else some (v.layout.size, v.layout.align)).foldr after f.layout.data ∧
    (∀ e ∈ c.empties, e.1.tag ≤ fTag + vs.length) ∧
    (c.empty = true → f.layout.empty = true ∧ ∀ t, (.user t, 0) ∈ c.empties → (.user t, 0) ∈ f.layout.empties) := by
  induction vs with
  | nil => exact ⟨hf, rfl, hft, fun h => ⟨h, fun _ => id⟩⟩
  | cons v vs ih =>
    obtain ⟨i1, i2, i3, i4⟩ := ih (fun x hx => hv x (List.mem_cons_of_mem _ hx)) (fun h x hx => hclash h x (List.mem_cons_of_mem _ hx))
    simp only [uncaptureLayout, List.map_cons, List.foldr_cons, List.length_cons]
    generalize hR : uncaptureLayout fTag f vs = R at i1 i2 i3 i4
    generalize htag : fTag + vs.length + 1 = tag
    rcases hve : v.layout.empty with _ | _
    · -- a value that is stored
      obtain ⟨hp, hpl⟩ : v.layout.Proper ∧ ∀ e ∈ v.layout.empties, ∃ t, e.1 = .user t := by
        rcases hv v (by simp) with h | h
        · rw [hve] at h; simp at h
        · exact h
      obtain ⟨-, p1, p2, p3, p4⟩ := hp
      have hU : uncapturedLayout tag v = ⟨v.layout.size, v.layout.size, v.layout.align, false, v.layout.empties⟩ := by
        rw [uncapturedLayout, hve, if_neg (by simp), classLayout_member _ _ p1 p2 p3]
      rw [hU]
      obtain ⟨c1, c2, c3, c4⟩ := classLayout_two (.invocable tag (f.ty :: v.ty :: vs.map (·.ty)))
        ⟨v.layout.size, v.layout.size, v.layout.align, false, v.layout.empties⟩ R
        ⟨p2, p1, (roundUp_dvd _ _ p2 p3).symm, by simp⟩ i1 (fun _ => p4) (by
          intro hor n h1 h2
          simp only [Bool.false_or] at hor
          obtain ⟨hfe, h3⟩ := i4 hor
          obtain ⟨t, ht⟩ := hpl _ h1
          simp only at ht
          subst ht
          exact hclash hfe v (by simp) hve t h1 (h3 t h2))
      refine ⟨c1, ?_, ?_, ?_⟩
      · rw [c2, i2]; simp [Layout.data]
      · intro e he
        rcases c4 e he with h | ⟨x, hx, hxe⟩ | ⟨x, hx, hxe⟩
        · rw [h]; simp only [UName.tag]; omega
        · obtain ⟨t, ht⟩ := hpl x hx
          rw [← hxe, ht]; simp [UName.tag]
        · have := i3 x hx
          rw [← hxe]; omega
      · intro h; rw [c3] at h; simp at h
    · -- an empty one
      have hU : uncapturedLayout tag v = ⟨1, 1, 1, true, [(.uncaptured v.ty tag, 0)]⟩ := by
        rw [uncapturedLayout, hve, if_pos rfl, classLayout_nil]
      rw [hU]
      obtain ⟨c1, c2, c3, c4⟩ := classLayout_two (.invocable tag (f.ty :: v.ty :: vs.map (·.ty)))
        ⟨1, 1, 1, true, [(.uncaptured v.ty tag, 0)]⟩ R ⟨by simp, by simp, by simp [roundUp], by simp⟩ i1 (by simp) (by
          intro _ n h1 h2
          simp only [List.mem_singleton, Prod.mk.injEq, and_true] at h1
          subst h1
          have := i3 _ h2
          simp only [UName.tag] at this
          omega)
      refine ⟨c1, ?_, ?_, ?_⟩
      · rw [c2, i2]; simp [Layout.data, after]
      · intro e he
        rcases c4 e he with h | ⟨x, hx, hxe⟩ | ⟨x, hx, hxe⟩
        · rw [h]; simp only [UName.tag]; omega
        · simp only [List.mem_singleton] at hx
          rw [← hxe, hx]; simp only [UName.tag]; omega
        · have := i3 x hx
          rw [← hxe]; omega
      · intro h
        rw [c3] at h
        simp only [Bool.true_and] at h
        obtain ⟨hfe, h3⟩ := i4 h
        refine ⟨hfe, fun t ht => h3 t ?_⟩
        have hcm := (c1.empty (by rw [c3]; simpa using h)).2.2
        rcases c4 _ ht with h | ⟨x, hx, hxe⟩ | ⟨x, hx, hxe⟩
        · simp at h
        · simp only [List.mem_singleton] at hx
          rw [hx] at hxe; simp at hxe
        · have := (i1.empty h).2.2 x hx
          rcases x with ⟨a, b⟩
          simp only at this hxe
          rw [← this, ← hxe]; exact hx

end Pigro.Lay
