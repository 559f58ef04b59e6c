import Verif.Model.MsMake
import Verif.Spec.MsMake
import Verif.Proofs.Copies
import Verif.Props.Overload
/-!
# Lemmas: making objects with the Microsoft compiler
-/
namespace Pigro.Cxx
variable {B V L : Type}

theorem ownedAll_eq (els : List (Elem B)) : ownedAll els = els.filterMap Elem.owned := by
  rw [ownedAll]
  congr 1
  funext el
  rcases el with _ | _ <;> rfl

theorem ownedAll_append (a b : List (Elem B)) : ownedAll (a ++ b) = ownedAll a ++ ownedAll b := by
  simp [ownedAll]

theorem mem_ownedAll {els : List (Elem B)} {a : Nat} : a ∈ ownedAll els ↔ ∃ el ∈ els, el.owned = some a := by
  rw [ownedAll_eq, List.mem_filterMap]

/-- The objects held by value exist, are new and different. -/
structure Fresh (n : Nat) (m : Mem V L) (els : List (Elem B)) : Prop where
  nodup : (ownedAll els).Nodup
  range : ∀ a ∈ ownedAll els, n ≤ a ∧ a < m.next ∧ m.alive a = true

theorem Fresh.pairwise {n : Nat} {m : Mem V L} {els : List (Elem B)} (h : Fresh n m els) :
    els.Pairwise (fun x y => ∀ a b, x.owned = some a → y.owned = some b → a ≠ b) := by
  have := h.nodup
  rw [ownedAll_eq, List.Nodup, List.pairwise_filterMap] at this
  refine this.imp ?_
  intro x y hxy a b ha hb
  exact hxy a ha b hb

theorem nodup_of_pairwise {els : List (Elem B)} (h : els.Pairwise (fun x y => ∀ a b, x.owned = some a → y.owned = some b → a < b)) :
    (ownedAll els).Nodup := by
  rw [ownedAll_eq, List.Nodup, List.pairwise_filterMap]
  refine h.imp ?_
  intro x y hxy a ha b hb
  exact Nat.ne_of_lt (hxy a b ha hb)

theorem Fresh.left {n : Nat} {m : Mem V L} {a b : List (Elem B)} (h : Fresh n m (a ++ b)) : Fresh n m a := by
  have h1 := h.nodup
  rw [ownedAll_append, List.nodup_append] at h1
  exact ⟨h1.1, fun x hx => h.range x (by rw [ownedAll_append]; exact List.mem_append_left _ hx)⟩

theorem Fresh.right {n : Nat} {m : Mem V L} {a b : List (Elem B)} (h : Fresh n m (a ++ b)) : Fresh n m b := by
  have h1 := h.nodup
  rw [ownedAll_append, List.nodup_append] at h1
  exact ⟨h1.2.1, fun x hx => h.range x (by rw [ownedAll_append]; exact List.mem_append_right _ hx)⟩

theorem Fresh.disjoint {n : Nat} {m : Mem V L} {a b : List (Elem B)} (h : Fresh n m (a ++ b)) : ∀ x ∈ ownedAll a, ∀ y ∈ ownedAll b, x ≠ y := by
  have h1 := h.nodup
  rw [ownedAll_append, List.nodup_append] at h1
  exact h1.2.2

theorem Fresh.append {n : Nat} {m : Mem V L} {a b : List (Elem B)} (ha : Fresh n m a) (hb : Fresh n m b)
    (hd : ∀ x ∈ ownedAll a, ∀ y ∈ ownedAll b, x ≠ y) : Fresh n m (a ++ b) := by
  refine ⟨?_, ?_⟩
  · rw [ownedAll_append, List.nodup_append]
    exact ⟨ha.nodup, hb.nodup, hd⟩
  · intro x hx
    rw [ownedAll_append, List.mem_append] at hx
    exact hx.elim (ha.range x) (hb.range x)

theorem Fresh.swap {n : Nat} {m : Mem V L} {a b : List (Elem B)} (h : Fresh n m (a ++ b)) : Fresh n m (b ++ a) :=
  h.right.append h.left fun x hx y hy => (h.disjoint y hy x hx).symm

theorem view_congr {m m' : Mem V L} {els : List (Elem B)} (h : ∀ a ∈ ownedAll els, m'.get a = m.get a) :
    els.map (Elem.view m') = els.map (Elem.view m) := by
  apply List.map_congr_left
  intro el hel
  rcases el with b | ⟨ty, a⟩
  · rfl
  · simp only [Elem.view]
    split
    · rfl
    · rename_i hl
      rw [h a (mem_ownedAll.2 ⟨_, hel, Elem.owned_stored ty a hl⟩)]

theorem view_reinit {m m' : Mem V L} {els els' : List (Elem B)} (h : Pairs (Reinit m m') els els') :
    els'.map (Elem.view m') = els.map (Elem.view m) := by
  apply List.ext_getElem?
  intro i
  rw [List.getElem?_map, List.getElem?_map]
  rcases hi : els[i]? with _ | el
  · rw [List.getElem?_eq_none_iff] at hi
    rw [List.getElem?_eq_none (by rw [h.1]; exact hi)]; rfl
  · obtain ⟨el', h1, h2⟩ := h.2 i el hi
    rw [h1]
    simp only [Option.map_some, Option.some.injEq]
    rcases el with b | ⟨ty, a⟩
    · simp only [Reinit] at h2
      rw [h2]; rfl
    · simp only [Reinit] at h2
      split at h2
      · rename_i hl
        rw [h2]; simp [Elem.view, hl]
      · rename_i hl
        obtain ⟨a', rfl, -, -, h3⟩ := h2
        simp [Elem.view, hl, h3]

/-- Some elements are copied or moved, the others stay. -/
theorem init_step (Λ : Lang B V) (c : Bool) (cat : Cat) (n : Nat) (ps ctx : List (Elem B)) (m : Mem V L) (hn : n ≤ m.next) (hF : Fresh n m (ps ++ ctx)) :
    let r := initElems Λ c cat ps m
    Fresh n r.2 (r.1 ++ ctx) ∧ (r.1 ++ ctx).map (Elem.view r.2) = (ps ++ ctx).map (Elem.view m) ∧ Agree n m r.2 ∧ m.next ≤ r.2.next ∧
    r.1.length = ps.length ∧ (∀ a ∈ ownedAll r.1, m.next ≤ a) ∧ ∀ a < m.next, r.2.alive a = m.alive a := by
  intro r
  obtain ⟨g, p, o, w⟩ := initElems_spec Λ c cat ps m
    (fun el hel a ha => (hF.range a (mem_ownedAll.2 ⟨el, by simp [hel], ha⟩)).2.1) hF.left.pairwise
  have hctx : ∀ a ∈ ownedAll ctx, r.2.get a = m.get a := by
    intro a ha
    refine g.frame a (hF.right.range a ha).2.1 ?_
    rintro ⟨el, hel, hx⟩
    exact hF.disjoint a (mem_ownedAll.2 ⟨el, hel, hx⟩) a ha rfl
  have hnew : ∀ a ∈ ownedAll r.1, m.next ≤ a ∧ a < r.2.next := by
    intro a ha
    obtain ⟨el, hel, hx⟩ := mem_ownedAll.1 ha
    exact o el hel a hx
  have hnx : m.next ≤ r.2.next := g.next
  refine ⟨Fresh.append ⟨nodup_of_pairwise w, ?_⟩ ⟨hF.right.nodup, ?_⟩ ?_, ?_, ⟨?_, ?_, g.world⟩, hnx, p.1, fun a ha => (hnew a ha).1, g.aliveOld⟩
  · intro a ha
    obtain ⟨h1, h2⟩ := hnew a ha
    exact ⟨by omega, h2, g.aliveNew a h1 h2⟩
  · intro a ha
    obtain ⟨h1, h2, h3⟩ := hF.right.range a ha
    exact ⟨h1, by omega, by rw [← h3]; exact g.aliveOld a h2⟩
  · intro x hx y hy
    have := (hnew x hx).1
    have := (hF.right.range y hy).2.1
    omega
  · rw [List.map_append, List.map_append, view_congr hctx, view_reinit p]
  · intro a ha
    refine g.frame a (by omega) ?_
    rintro ⟨el, hel, hx⟩
    have := (hF.range a (mem_ownedAll.2 ⟨el, by simp [hel], hx⟩)).1
    omega
  · intro a ha
    exact g.aliveOld a (by omega)

theorem killAll_spec (as : List Nat) : ∀ m : Mem V L, (m.killAll as).get = m.get ∧ (m.killAll as).next = m.next ∧ (m.killAll as).world = m.world ∧
    (m.killAll as).inits = m.inits ∧ ∀ a, a ∉ as → (m.killAll as).alive a = m.alive a := by
  induction as with
  | nil => intro m; exact ⟨rfl, rfl, rfl, rfl, fun _ _ => rfl⟩
  | cons x as ih =>
    intro m
    obtain ⟨h1, h2, h3, h4, h5⟩ := ih (m.kill x)
    refine ⟨h1, h2, h3, h4, fun a ha => ?_⟩
    simp only [List.mem_cons, not_or] at ha
    rw [show m.killAll (x :: as) = (m.kill x).killAll as from rfl, h5 a ha.2]
    simp [Mem.kill, ha.1]

theorem Agree.trans {n : Nat} {m m1 m2 : Mem V L} (h : Agree n m m1) (h' : Agree n m1 m2) : Agree n m m2 :=
  ⟨fun a ha => by rw [h'.get a ha, h.get a ha], fun a ha => by rw [h'.alive a ha, h.alive a ha], by rw [h'.world, h.world]⟩

/-- The constructors of `overload` keep what the closures hold. -/
theorem overload_step (Λ : Lang B V) (n : Nat) (ps ctx : List (Elem B)) (m : Mem V L) (hn : n ≤ m.next) (hF : Fresh n m (ps ++ ctx)) :
    let r := overloadClosures Λ ps m
    Fresh n r.2 (r.1 ++ ctx) ∧ (r.1 ++ ctx).map (Elem.view r.2) = (ps ++ ctx).map (Elem.view m) ∧ Agree n m r.2 ∧ m.next ≤ r.2.next ∧ r.1.length = ps.length := by
  intro r
  obtain ⟨f1, v1, a1, n1, l1, o1, e1⟩ := init_step Λ true .lv n ps ctx m hn hF
  generalize hargs : initElems Λ true .lv ps m = args at f1 v1 a1 n1 l1 o1 e1
  obtain ⟨f2, v2, a2, n2, l2, o2, e2⟩ := init_step Λ true .lv n args.1 ctx args.2 (by omega) f1
  generalize hbases : initElems Λ true .lv args.1 args.2 = bases at f2 v2 a2 n2 l2 o2 e2
  have hr : r = (bases.1, bases.2.killAll (ownedAll ps ++ ownedAll args.1)) := by
    rw [← hbases, ← hargs]; rfl
  obtain ⟨k1, k2, k3, -, k5⟩ := killAll_spec (ownedAll ps ++ ownedAll args.1) bases.2
  rw [hr]
  have hkill : ∀ a ∈ ownedAll (bases.1 ++ ctx), a ∉ ownedAll ps ++ ownedAll args.1 := by
    intro a ha hk
    rw [ownedAll_append, List.mem_append] at ha
    rw [List.mem_append] at hk
    rcases ha with ha | ha
    · have h1 := o2 a ha
      rcases hk with hk | hk
      · have := (hF.left.range a hk).2.1; omega
      · have := (f1.left.range a hk).2.1; omega
    · rcases hk with hk | hk
      · exact hF.disjoint a hk a ha rfl
      · exact f1.disjoint a hk a ha rfl
  refine ⟨⟨f2.nodup, ?_⟩, ?_, ?_, ?_, ?_⟩
  · intro a ha
    obtain ⟨h1, h2, h3⟩ := f2.range a ha
    exact ⟨h1, by rw [k2]; exact h2, by rw [k5 a (hkill a ha)]; exact h3⟩
  · rw [← v1, ← v2]
    exact view_congr fun a _ => by rw [k1]
  · refine (a1.trans a2).trans ⟨fun a _ => by rw [k1], fun a ha => k5 a ?_, k3⟩
    rw [List.mem_append]
    rintro (h | h)
    · have := (hF.left.range a h).1; omega
    · have := (f1.left.range a h).1; omega
  · simp only [k2]; omega
  · rw [l2, l1]

theorem ownedAll_empty (b : B) (l : List (Elem B)) : ownedAll (.empty b :: l) = ownedAll l := rfl

theorem ownedAll_ref (ty : Ty B) (a : Nat) (l : List (Elem B)) (h : ty.ref = .lref) : ownedAll (.stored ty a :: l) = ownedAll l := by
  simp [ownedAll, h]

theorem ownedAll_obj (ty : Ty B) (a : Nat) (l : List (Elem B)) (h : ty.ref ≠ .lref) : ownedAll (.stored ty a :: l) = a :: ownedAll l := by
  simp [ownedAll, h]

theorem initElems_count (Λ : Lang B V) (c : Bool) (cat : Cat) (els : List (Elem B)) : ∀ m : Mem V L,
    (ownedAll (initElems Λ c cat els m).1).length = (ownedAll els).length := by
  induction els with
  | nil => intro m; rfl
  | cons el els ih =>
    intro m
    rcases el with b | ⟨ty, a⟩
    · exact ih m
    · rw [initElems]
      split
      · rename_i hl
        rw [ownedAll_ref _ _ _ hl, ownedAll_ref _ _ _ hl, ih]
      · rename_i hl
        rw [ownedAll_obj _ _ _ hl, ownedAll_obj _ _ _ hl, List.length_cons, List.length_cons, ih]

/-! ### How many objects there are -/

theorem living_alloc (m : Mem V L) (x : V) : (m.alloc x).living = m.living + 1 := by
  show ((List.range (m.next + 1)).filter (m.alloc x).alive).length = _
  rw [List.range_succ, List.filter_append, List.length_append, Mem.living]
  have h : (List.range m.next).filter (m.alloc x).alive = (List.range m.next).filter m.alive := by
    refine List.filter_congr fun a ha => ?_
    have hne : a ≠ m.next := by have := List.mem_range.1 ha; omega
    simp [Mem.alloc, hne]
  rw [h]
  simp [Mem.alloc]

theorem living_initFrom (Λ : Lang B V) (e : Expr B) (m : Mem V L) : (Λ.initFrom e m).living = m.living + 1 := by
  rw [← living_alloc m (m.get e.addr)]
  rcases e with ⟨b, c, v, cat, a⟩
  rcases cat with _ | _ <;> rcases c with _ | _ <;> rfl

theorem filter_one (l : List Nat) (p : Nat → Bool) (a : Nat) (h : l.Nodup) (ha : a ∈ l) (hp : p a = true) :
    (l.filter fun b => p b && !decide (b = a)).length + 1 = (l.filter p).length := by
  induction l with
  | nil => simp at ha
  | cons x l ih =>
    rw [List.nodup_cons] at h
    rw [List.filter_cons, List.filter_cons]
    by_cases hx : x = a
    · subst hx
      have : (l.filter fun b => p b && !decide (b = x)) = l.filter p := by
        refine List.filter_congr fun b hb => ?_
        have : b ≠ x := fun hbx => h.1 (hbx ▸ hb)
        simp [this]
      rw [this]
      simp [hp]
    · have ha' : a ∈ l := by
        rcases List.mem_cons.1 ha with h' | h'
        · exact absurd h'.symm hx
        · exact h'
      have := ih h.2 ha'
      rcases hpx : p x with _ | _
      · simp [this]
      · simp only [hx, decide_false, Bool.not_false, Bool.and_true, if_true, List.length_cons]
        omega

theorem living_kill (m : Mem V L) (a : Nat) (ha : a < m.next) (hl : m.alive a = true) : (m.kill a).living + 1 = m.living :=
  filter_one (List.range m.next) m.alive a List.nodup_range (List.mem_range.2 ha) hl

theorem living_killAll (as : List Nat) : ∀ m : Mem V L, as.Nodup → (∀ a ∈ as, a < m.next ∧ m.alive a = true) → (m.killAll as).living + as.length = m.living := by
  induction as with
  | nil => intro m _ _; rfl
  | cons x as ih =>
    intro m hn h
    rw [List.nodup_cons] at hn
    have h1 := ih (m.kill x) hn.2 fun a ha => by
      have hne : a ≠ x := fun hax => hn.1 (hax ▸ ha)
      obtain ⟨h2, h3⟩ := h a (by simp [ha])
      exact ⟨h2, by simp [Mem.kill, h3, hne]⟩
    have h2 := living_kill m x (h x (by simp)).1 (h x (by simp)).2
    rw [show m.killAll (x :: as) = (m.kill x).killAll as from rfl, List.length_cons]
    omega

theorem living_initElems (Λ : Lang B V) (c : Bool) (cat : Cat) (els : List (Elem B)) : ∀ m : Mem V L,
    (initElems Λ c cat els m).2.living = m.living + (ownedAll els).length := by
  induction els with
  | nil => intro m; rfl
  | cons el els ih =>
    intro m
    rcases el with b | ⟨ty, a⟩
    · exact ih m
    · rw [initElems]
      split
      · rename_i hl
        rw [ownedAll_ref _ _ _ hl]
        exact ih m
      · rename_i hl
        rw [ownedAll_obj _ _ _ hl, List.length_cons]
        simp only []
        rw [ih, living_initFrom]
        omega

/-- The constructors of `overload` destroy as many objects as they make, besides taking the place of the closures. -/
theorem living_overload (Λ : Lang B V) (n : Nat) (ps : List (Elem B)) (m : Mem V L) (hn : n ≤ m.next) (hF : Fresh n m ps) :
    (overloadClosures Λ ps m).2.living = m.living := by
  obtain ⟨f1, -, -, n1, -, o1, e1⟩ := init_step Λ true .lv n ps [] m hn (by simpa using hF)
  have c1 := initElems_count Λ true .lv ps m
  have v1 := living_initElems Λ true .lv ps m
  have hr : (overloadClosures Λ ps m).2 = (initElems Λ true .lv (initElems Λ true .lv ps m).1 (initElems Λ true .lv ps m).2).2.killAll
      (ownedAll ps ++ ownedAll (initElems Λ true .lv ps m).1) := rfl
  rw [hr]
  generalize initElems Λ true .lv ps m = args at *
  obtain ⟨-, -, -, n2, -, -, e2⟩ := init_step Λ true .lv n args.1 [] args.2 (by omega) f1
  have v2 := living_initElems Λ true .lv args.1 args.2
  generalize initElems Λ true .lv args.1 args.2 = bases at *
  rw [List.append_nil] at f1
  have := living_killAll (ownedAll ps ++ ownedAll args.1) bases.2 (by
    rw [List.nodup_append]
    refine ⟨hF.nodup, f1.nodup, fun x hx y hy => ?_⟩
    have := (hF.range x hx).2.1
    have := o1 y hy
    omega) (by
    intro a ha
    rcases List.mem_append.1 ha with ha | ha
    · obtain ⟨-, h2, h3⟩ := hF.range a ha
      exact ⟨by omega, by rw [e2 a (by omega), e1 a h2, h3]⟩
    · obtain ⟨-, h2, h3⟩ := f1.range a ha
      exact ⟨by omega, by rw [e2 a h2, h3]⟩)
  rw [List.length_append] at this
  omega

theorem element_count (Λ : Lang B V) (e : Expr B) (m : Mem V L) :
    (ownedAll [(compressedTupleElement Λ e m).1]).length = if Λ.isEmpty e.base then 0 else if e.cat = .xv then 1 else 0 := by
  have hE : Λ.emptyTy e.type = Λ.isEmpty e.base := by simp [Lang.emptyTy, Expr.type, Ty.removeCvref, Ty.removeReference, Ty.removeCv]
  rcases hem : Λ.isEmpty e.base with _ | _ <;> rcases hcat : e.cat with _ | _ <;> simp [compressedTupleElement, hE, hem, fwdCapture, deduceFwd, hcat, ownedAll]

theorem living_element (Λ : Lang B V) (e : Expr B) (m : Mem V L) :
    (compressedTupleElement Λ e m).2.living = m.living + if Λ.isEmpty e.base then 0 else if e.cat = .xv then 1 else 0 := by
  have hE : Λ.emptyTy e.type = Λ.isEmpty e.base := by simp [Lang.emptyTy, Expr.type, Ty.removeCvref, Ty.removeReference, Ty.removeCv]
  rcases hem : Λ.isEmpty e.base with _ | _ <;> rcases hcat : e.cat with _ | _ <;> simp [compressedTupleElement, hE, hem, fwdCapture, deduceFwd, hcat, living_initFrom]

/-- Whether the element holds an object. -/
def View.isObj : View B V → Bool
  | .obj .. => true
  | _ => false

theorem count_view (m : Mem V L) (els : List (Elem B)) : (ownedAll els).length = ((els.map (Elem.view m)).filter View.isObj).length := by
  induction els with
  | nil => rfl
  | cons el els ih =>
    have h1 : ownedAll (el :: els) = ownedAll [el] ++ ownedAll els := ownedAll_append [el] els
    rw [h1, List.length_append, ih, List.map_cons, List.filter_cons]
    rcases el with b | ⟨ty, a⟩
    · simp [ownedAll, Elem.view, View.isObj]
    · by_cases hl : ty.ref = .lref
      · simp [ownedAll, Elem.view, View.isObj, hl]
      · simp [ownedAll, Elem.view, View.isObj, hl, Nat.add_comm]

/-- Two runs: the memories agree, and the elements made are the same. -/
structure Twin (n : Nat) (m m' : Mem V L) (els els' : List (Elem B)) : Prop where
  agree : Agree n m m'
  le : n ≤ m.next
  le' : n ≤ m'.next
  fresh : Fresh n m els
  fresh' : Fresh n m' els'
  view : els'.map (Elem.view m') = els.map (Elem.view m)
  living : m'.living = m.living

theorem Twin.count {n : Nat} {m m' : Mem V L} {els els' : List (Elem B)} (h : Twin n m m' els els') : (ownedAll els').length = (ownedAll els).length := by
  rw [count_view m', count_view m, h.view]

theorem Twin.length {n : Nat} {m m' : Mem V L} {els els' : List (Elem B)} (h : Twin n m m' els els') : els'.length = els.length := by
  have := congrArg List.length h.view
  simpa using this

theorem Twin.swap {n : Nat} {m m' : Mem V L} {a b a' b' : List (Elem B)} (h : Twin n m m' (a ++ b) (a' ++ b')) (hl : a'.length = a.length) :
    Twin n m m' (b ++ a) (b' ++ a') := by
  have hv := h.view
  rw [List.map_append, List.map_append] at hv
  obtain ⟨h1, h2⟩ := List.append_inj hv (by simp [hl])
  exact ⟨h.agree, h.le, h.le', h.fresh.swap, h.fresh'.swap, by rw [List.map_append, List.map_append, h1, h2], h.living⟩

theorem Twin.right {n : Nat} {m m' : Mem V L} {a b a' b' : List (Elem B)} (h : Twin n m m' (a ++ b) (a' ++ b')) (hl : a'.length = a.length) :
    Twin n m m' b b' := by
  have hv := h.view
  rw [List.map_append, List.map_append] at hv
  obtain ⟨h1, h2⟩ := List.append_inj hv (by simp [hl])
  exact ⟨h.agree, h.le, h.le', h.fresh.right, h.fresh'.right, h2, h.living⟩

/-- Both runs copy or move some elements. -/
theorem Twin.init (Λ : Lang B V) (c : Bool) (cat : Cat) {n : Nat} {m m' : Mem V L} {ps ctx ps' ctx' : List (Elem B)}
    (h : Twin n m m' (ps ++ ctx) (ps' ++ ctx')) (hl : ps'.length = ps.length) :
    Twin n (initElems Λ c cat ps m).2 (initElems Λ c cat ps' m').2 ((initElems Λ c cat ps m).1 ++ ctx) ((initElems Λ c cat ps' m').1 ++ ctx') ∧
    (initElems Λ c cat ps m).1.length = ps.length ∧ (initElems Λ c cat ps' m').1.length = ps'.length := by
  obtain ⟨f1, v1, a1, n1, l1, -, -⟩ := init_step Λ c cat n ps ctx m h.le h.fresh
  obtain ⟨f2, v2, a2, n2, l2, -, -⟩ := init_step Λ c cat n ps' ctx' m' h.le' h.fresh'
  have hcnt := ((h.swap hl).right (by have := h.length; simp only [List.length_append] at this; omega)).count
  refine ⟨⟨⟨fun a ha => ?_, fun a ha => ?_, ?_⟩, ?_, ?_, f1, f2, ?_, by rw [living_initElems, living_initElems, h.living, hcnt]⟩, l1, l2⟩
  · rw [a2.get a ha, a1.get a ha, h.agree.get a ha]
  · rw [a2.alive a ha, a1.alive a ha, h.agree.alive a ha]
  · rw [a2.world, a1.world, h.agree.world]
  · have := h.le; omega
  · have := h.le'; omega
  · rw [v1, v2, h.view]

/-- One run goes through the constructors of `overload`. -/
theorem Twin.overload (Λ : Lang B V) {n : Nat} {m m' : Mem V L} {els ps' ctx' : List (Elem B)} (h : Twin n m m' els (ps' ++ ctx')) :
    Twin n m (overloadClosures Λ ps' m').2 els ((overloadClosures Λ ps' m').1 ++ ctx') ∧ (overloadClosures Λ ps' m').1.length = ps'.length := by
  obtain ⟨f2, v2, a2, n2, l2⟩ := overload_step Λ n ps' ctx' m' h.le' h.fresh'
  refine ⟨⟨h.agree.trans a2, h.le, ?_, h.fresh, f2, by rw [v2, h.view], by rw [living_overload Λ n ps' m' h.le' h.fresh'.left, h.living]⟩, l2⟩
  have := h.le'; omega

/-- One run: an element is made. -/
theorem capture_step (Λ : Lang B V) (e : Expr B) (n : Nat) (ctx : List (Elem B)) (m : Mem V L) (hn : n ≤ m.next) (he : e.addr < n) (hF : Fresh n m ctx) :
    let x := compressedTupleElement Λ e m
    Fresh n x.2 (x.1 :: ctx) ∧ ctx.map (Elem.view x.2) = ctx.map (Elem.view m) ∧ m.next ≤ x.2.next ∧ x.2.world = m.world ∧
    (∀ a < n, x.2.alive a = m.alive a) ∧
    x.1.view x.2 = (if Λ.isEmpty e.base then .empty e.base else match e.cat with
      | .lv => .ref ⟨e.base, e.c, e.v, .lref⟩ e.addr
      | .xv => .obj ⟨e.base, e.c, e.v, .none⟩ (m.get e.addr)) ∧
    ∀ a < n, x.2.get a = if Λ.isEmpty e.base = false ∧ e.cat = .xv ∧ e.c = false ∧ a = e.addr then Λ.moved (m.get a) else m.get a := by
  have hE : Λ.emptyTy e.type = Λ.isEmpty e.base := by simp [Lang.emptyTy, Expr.type, Ty.removeCvref, Ty.removeReference, Ty.removeCv]
  have hb : e.type.removeCvref.base = e.base := by simp [Expr.type, Ty.removeCvref, Ty.removeReference, Ty.removeCv]
  have hcons : ∀ (m1 : Mem V L) (x : Elem B), Fresh n m1 [x] → Fresh n m1 ctx → (∀ a ∈ ownedAll [x], ∀ y ∈ ownedAll ctx, a ≠ y) → Fresh n m1 (x :: ctx) :=
    fun m1 x h1 h2 h3 => Fresh.append (a := [x]) h1 h2 h3
  intro x
  rcases hem : Λ.isEmpty e.base with _ | _
  · rcases hcat : e.cat with _ | _
    · have hx : x = (.stored ⟨e.base, e.c, e.v, .lref⟩ e.addr, m) := by
        show compressedTupleElement Λ e m = _
        simp [compressedTupleElement, hE, hem, fwdCapture, deduceFwd, hcat]
      rw [hx]
      refine ⟨hcons _ _ ⟨by simp [ownedAll], by simp [ownedAll]⟩ hF (by simp [ownedAll]), rfl, Nat.le_refl _, rfl, fun _ _ => rfl, by simp [Elem.view], ?_⟩
      intro a ha; simp
    · have hx : x = (.stored ⟨e.base, e.c, e.v, .none⟩ m.next, Λ.initFrom e m) := by
        show compressedTupleElement Λ e m = _
        simp [compressedTupleElement, hE, hem, fwdCapture, deduceFwd, hcat]
      obtain ⟨g1, n1, v1⟩ := initFrom_grows Λ e m (by omega)
      have hctx : ∀ a ∈ ownedAll ctx, (Λ.initFrom e m).get a = m.get a := by
        intro a ha
        obtain ⟨h1, h2, -⟩ := hF.range a ha
        refine g1.frame a h2 ?_
        rintro ⟨h, -⟩
        omega
      rw [hx]
      refine ⟨hcons _ _ ⟨by simp [ownedAll], ?_⟩ ⟨hF.nodup, ?_⟩ ?_, view_congr hctx, g1.next, g1.world, fun a ha => g1.aliveOld a (by omega), ?_, ?_⟩
      · intro a ha
        have : a = m.next := by simpa [ownedAll] using ha
        subst this
        exact ⟨hn, by simp only [n1]; omega, g1.aliveNew _ (Nat.le_refl _) (by omega)⟩
      · intro a ha
        obtain ⟨h1, h2, h3⟩ := hF.range a ha
        exact ⟨h1, by simp only [n1]; omega, by rw [← h3]; exact g1.aliveOld a h2⟩
      · intro a ha y hy
        have : a = m.next := by simpa [ownedAll] using ha
        have := (hF.range y hy).2.1
        omega
      · simp [Elem.view, v1]
      · intro a ha
        have hne : a ≠ m.next := by omega
        rcases hc : e.c with _ | _
        · by_cases hae : a = e.addr
          · subst hae
            simp [Lang.initFrom, hcat, hc, Mem.write]
          · have : ∀ x, (Mem.write (m.alloc (m.get e.addr)) e.addr x).get a = m.get a := by
              intro x; simp [Mem.write, Mem.alloc, hae, hne]
            simp only [hae, and_false, if_false]
            simp [Lang.initFrom, hcat, hc, Mem.write, Mem.alloc, hae, hne]
        · simp [Lang.initFrom, hcat, hc, Mem.alloc, hne]
  · have hx : x = (.empty e.base, m) := by
      show compressedTupleElement Λ e m = _
      simp [compressedTupleElement, hE, hem, hb]
    rw [hx]
    refine ⟨hcons _ _ ⟨by simp [ownedAll], by simp [ownedAll]⟩ hF (by simp [ownedAll]), rfl, Nat.le_refl _, rfl, fun _ _ => rfl, by simp [Elem.view], ?_⟩
    intro a ha; simp

/-- Both runs make an element from the same expression. -/
theorem Twin.capture (Λ : Lang B V) (e : Expr B) {n : Nat} {m m' : Mem V L} {ctx ctx' : List (Elem B)} (h : Twin n m m' ctx ctx') (he : e.addr < n) :
    Twin n (compressedTupleElement Λ e m).2 (compressedTupleElement Λ e m').2 ((compressedTupleElement Λ e m).1 :: ctx) ((compressedTupleElement Λ e m').1 :: ctx') := by
  obtain ⟨f1, v1, n1, w1, a1, x1, g1⟩ := capture_step Λ e n ctx m h.le he h.fresh
  obtain ⟨f2, v2, n2, w2, a2, x2, g2⟩ := capture_step Λ e n ctx' m' h.le' he h.fresh'
  refine ⟨⟨fun a ha => ?_, fun a ha => ?_, ?_⟩, ?_, ?_, f1, f2, ?_, by rw [living_element, living_element, h.living]⟩
  · rw [g1 a ha, g2 a ha, h.agree.get a ha]
  · rw [a1 a ha, a2 a ha, h.agree.alive a ha]
  · rw [w1, w2, h.agree.world]
  · have := h.le; omega
  · have := h.le'; omega
  · rw [List.map_cons, List.map_cons, v1, v2, x1, x2, h.agree.get _ he, h.view]

/-- The second run makes it as `compressed_tuple_element` does there. -/
theorem Twin.captureMs (Λ : Lang B V) (e : Expr B) {n : Nat} {m m' : Mem V L} {ctx ctx' : List (Elem B)} (h : Twin n m m' ctx ctx') (he : e.addr < n) :
    Twin n (compressedTupleElement Λ e m).2 (compressedTupleElementMs Λ e m').2 ((compressedTupleElement Λ e m).1 :: ctx) ((compressedTupleElementMs Λ e m').1 ++ ctx') ∧
    (compressedTupleElementMs Λ e m').1.length = 1 := by
  have hc := h.capture Λ e he
  rw [compressedTupleElementMs]
  generalize compressedTupleElement Λ e m' = x at hc ⊢
  obtain ⟨el, mx⟩ := x
  rcases el with b | ⟨ty, a⟩
  · exact ⟨hc, rfl⟩
  · obtain ⟨h1, h2⟩ := Twin.overload Λ (ps' := [.stored ty a]) hc
    exact ⟨h1, h2⟩

theorem Twin.elements (Λ : Lang B V) (es : List (Expr B)) : ∀ {n : Nat} {m m' : Mem V L} {ctx ctx' : List (Elem B)}, Twin n m m' ctx ctx' → (∀ e ∈ es, e.addr < n) →
    Twin n (mkElems Λ es m).2 (elementsMs Λ es m').2 (ctx ++ (mkElems Λ es m).1) (ctx' ++ (elementsMs Λ es m').1) := by
  induction es with
  | nil => intro n m m' ctx ctx' h _; simpa [mkElems, elementsMs] using h
  | cons e es ih =>
    intro n m m' ctx ctx' h he
    obtain ⟨h1, h2⟩ := h.captureMs Λ e (he e (by simp))
    have h3 := Twin.swap (a := [(compressedTupleElement Λ e m).1]) (by simpa using h1) (by simpa using h2)
    have h4 := ih h3 (fun e' h' => he e' (by simp [h']))
    simpa [mkElems, elementsMs, List.append_assoc] using h4

/-- Both runs make a new object. -/
theorem Twin.alloc {n : Nat} {m m' : Mem V L} {ctx ctx' : List (Elem B)} (h : Twin n m m' ctx ctx') (tb : B) (v : V) :
    Twin n (m.alloc v) (m'.alloc v) (.stored ⟨tb, false, false, .none⟩ m.next :: ctx) (.stored ⟨tb, false, false, .none⟩ m'.next :: ctx') := by
  have one : ∀ (m : Mem V L) (ctx : List (Elem B)), n ≤ m.next → Fresh n m ctx → Fresh n (m.alloc v) (.stored ⟨tb, false, false, .none⟩ m.next :: ctx) ∧
      ctx.map (Elem.view (m.alloc v)) = ctx.map (Elem.view m) ∧ Agree n m (m.alloc v) := by
    intro m ctx hn hF
    refine ⟨Fresh.append (a := [.stored ⟨tb, false, false, .none⟩ m.next]) ⟨by simp [ownedAll], ?_⟩ ⟨hF.nodup, ?_⟩ ?_, view_congr ?_, ⟨?_, ?_, rfl⟩⟩
    · intro a ha
      have : a = m.next := by simpa [ownedAll] using ha
      subst this
      exact ⟨hn, by simp [Mem.alloc], by simp [Mem.alloc]⟩
    · intro a ha
      obtain ⟨h1, h2, h3⟩ := hF.range a ha
      exact ⟨h1, by simp only [Mem.alloc]; omega, by simp [Mem.alloc, h3]⟩
    · intro a ha y hy
      have : a = m.next := by simpa [ownedAll] using ha
      have := (hF.range y hy).2.1
      omega
    · intro a ha
      have := (hF.range a ha).2.1
      have hne : a ≠ m.next := by omega
      simp [Mem.alloc, hne]
    · intro a ha
      have hne : a ≠ m.next := by omega
      simp [Mem.alloc, hne]
    · intro a ha
      have hne : a ≠ m.next := by omega
      simp [Mem.alloc, hne]
  obtain ⟨f1, v1, a1⟩ := one m ctx h.le h.fresh
  obtain ⟨f2, v2, a2⟩ := one m' ctx' h.le' h.fresh'
  refine ⟨⟨fun a ha => ?_, fun a ha => ?_, ?_⟩, ?_, ?_, f1, f2, ?_, by rw [living_alloc, living_alloc, h.living]⟩
  · rw [a2.get a ha, a1.get a ha, h.agree.get a ha]
  · rw [a2.alive a ha, a1.alive a ha, h.agree.alive a ha]
  · rw [a2.world, a1.world, h.agree.world]
  · have := h.le; simp only [Mem.alloc]; omega
  · have := h.le'; simp only [Mem.alloc]; omega
  · rw [List.map_cons, List.map_cons, v1, v2, h.view]
    simp [Elem.view, Mem.alloc]

theorem Twin.start {m : Mem V L} : Twin (B := B) m.next m m [] [] :=
  ⟨⟨fun _ _ => rfl, fun _ _ => rfl, rfl⟩, Nat.le_refl _, Nat.le_refl _, ⟨by simp [ownedAll], by simp [ownedAll]⟩, ⟨by simp [ownedAll], by simp [ownedAll]⟩, rfl, rfl⟩

theorem Twin.insert {n : Nat} {m m' : Mem V L} {a b a' b' : List (Elem B)} (h : Twin n m m' (a ++ b) (a' ++ b')) (hl : a'.length = a.length) (t : B) :
    Twin n m m' (a ++ .empty t :: b) (a' ++ .empty t :: b') := by
  have ho : ∀ x y : List (Elem B), ownedAll (x ++ .empty t :: y) = ownedAll (x ++ y) := fun x y => by simp [ownedAll]
  have hv := h.view
  rw [List.map_append, List.map_append] at hv
  obtain ⟨h1, h2⟩ := List.append_inj hv (by simp [hl])
  refine ⟨h.agree, h.le, h.le', ⟨by rw [ho]; exact h.fresh.nodup, by rw [ho]; exact h.fresh.range⟩,
    ⟨by rw [ho]; exact h.fresh'.nodup, by rw [ho]; exact h.fresh'.range⟩, ?_, h.living⟩
  rw [List.map_append, List.map_append, List.map_cons, List.map_cons, h1, h2]; rfl

theorem castArgs_lt [DecidableEq B] (Λ : Lang B V) (ts : List (Ty B)) : ∀ (es : List (Expr B)) (m : Mem V L) (es' : List (Expr B)) (m' : Mem V L),
    (∀ t ∈ ts, t.ref = .none) → castArgs Λ ts es m = some (es', m') → m.next ≤ m'.next ∧ ∀ e ∈ es', e.addr < m'.next := by
  induction ts with
  | nil =>
    intro es m es' m' ht h
    rcases es with _ | ⟨e, es⟩
    · simp only [castArgs, Option.some.injEq, Prod.mk.injEq] at h
      rw [← h.1, ← h.2]
      exact ⟨Nat.le_refl _, by simp⟩
    · simp [castArgs] at h
  | cons t ts ih =>
    intro es m es' m' ht h
    rcases es with _ | ⟨e, es⟩
    · simp [castArgs] at h
    · rw [castArgs] at h
      split at h
      · simp at h
      · rename_i e1 m1 h1
        split at h
        · simp at h
        · rename_i es2 m2 h2
          simp only [Option.some.injEq, Prod.mk.injEq] at h
          obtain ⟨i1, i2⟩ := ih es m1 es2 m2 (fun t h => ht t (by simp [h])) h2
          rw [castArg, ht t (by simp)] at h1
          simp only [Option.ite_none_right_eq_some, Option.some.injEq, Prod.mk.injEq] at h1
          have hn : m1.next = m.next + 1 := by
            rw [← h1.2.2]
            simp [Lang.initFrom, Expr.named, Mem.alloc]
          rw [← h.1, ← h.2]
          refine ⟨by omega, fun e' he' => ?_⟩
          rcases List.mem_cons.1 he' with rfl | he'
          · rw [← h1.2.1]; simp only; omega
          · exact i2 e' he'

theorem initTuple_xv (Λ : Lang B V) (els : List (Elem B)) (m : Mem V L) : initTuple Λ false .xv els m = some (initElems Λ false .xv els m) := by
  rcases els with _ | ⟨a, _ | ⟨b, els⟩⟩ <;> rfl

theorem temporary_empty (Λ : Lang B V) (tb : B) (a : Nat) (m : Mem V L) (h : Λ.isEmpty tb = true) :
    compressedTupleElement Λ ⟨tb, false, false, .xv, a⟩ m = (.empty tb, m) := by
  simp [compressedTupleElement, Lang.emptyTy, Expr.type, Ty.removeCvref, Ty.removeReference, Ty.removeCv, h]

theorem temporary_stored (Λ : Lang B V) (tb : B) (a : Nat) (m : Mem V L) (h : Λ.isEmpty tb = false) :
    compressedTupleElement Λ ⟨tb, false, false, .xv, a⟩ m = (.stored ⟨tb, false, false, .none⟩ m.next, Λ.initFrom ⟨tb, false, false, .xv, a⟩ m) := by
  simp [compressedTupleElement, Lang.emptyTy, Expr.type, Ty.removeCvref, Ty.removeReference, Ty.removeCv, h, fwdCapture, deduceFwd]

theorem initElems_temporary (Λ : Lang B V) (tb : B) (a : Nat) (els : List (Elem B)) (m : Mem V L) :
    initElems Λ false .xv (.stored ⟨tb, false, false, .none⟩ a :: els) m =
      (.stored ⟨tb, false, false, .none⟩ m.next :: (initElems Λ false .xv els (Λ.initFrom ⟨tb, false, false, .xv, a⟩ m)).1,
        (initElems Λ false .xv els (Λ.initFrom ⟨tb, false, false, .xv, a⟩ m)).2) := rfl

/-- The run of `bindTuple` and that of `bindTupleMs`. -/
theorem bindTuple_twin (Λ : Lang B V) (dir : Dir) (tb : B) (f : Expr B) {n : Nat} {m m' : Mem V L} {els els' : List (Elem B)} (h : Twin n m m' els els') (hf : f.addr < n) :
    ∃ b m1 b' m1', bindTuple Λ dir f ⟨tb, false, false, .xv, m.next⟩ els (m.alloc (Λ.default tb)) = some (b, m1) ∧
      bindTupleMs Λ dir f ⟨tb, false, false, .xv, m'.next⟩ els' (m'.alloc (Λ.default tb)) = some (b', m1') ∧
      b.dir = dir ∧ b'.dir = dir ∧ Twin n m1 m1' b.parts b'.parts := by
  have h1 := h.alloc tb (Λ.default tb)
  obtain ⟨h2, l2⟩ := h1.captureMs Λ f hf
  have fin : ∀ (m1 m1' : Mem V L) (f1 t1 : Elem B) (els1 : List (Elem B)) (ps : List (Elem B)), Twin n m1 m1' (f1 :: t1 :: els1) ps →
      ∃ b' m2', bindTupleMs.bound dir (overloadClosures Λ ps m1') = some (b', m2') ∧ b'.dir = dir ∧ Twin n m1 m2' (f1 :: t1 :: els1) b'.parts := by
    intro m1 m1' f1 t1 els1 ps hT
    obtain ⟨hT', hl⟩ := Twin.overload Λ (ps' := ps) (ctx' := []) (by simpa using hT)
    have hlen := hT.length
    rw [bindTupleMs.bound]
    generalize overloadClosures Λ ps m1' = r at hT' hl ⊢
    obtain ⟨r1, r2⟩ := r
    rcases r1 with _ | ⟨f2, _ | ⟨t2, els2⟩⟩
    · simp only [List.length_nil] at hl; simp only [List.length_cons] at hlen; omega
    · simp only [List.length_cons, List.length_nil] at hl hlen; omega
    · exact ⟨_, _, rfl, rfl, by simpa [Bound.parts] using hT'⟩
  rcases hem : Λ.isEmpty tb with _ | _
  · -- the tuple is stored
    have h3 := Twin.swap (a := [(compressedTupleElement Λ f (m.alloc (Λ.default tb))).1]) (by simpa using h2) (by simpa using l2)
    obtain ⟨h4, l4, l4'⟩ := Twin.init Λ false .xv h3 (by simp [h.length])
    rw [initElems_temporary, initElems_temporary] at h4
    obtain ⟨h5, l5⟩ := Twin.overload Λ h4
    have hle := h.length
    have h6 := Twin.swap h5 (by rw [l5]; rw [initElems_temporary] at l4 l4'; rw [l4, l4']; simp [hle])
    obtain ⟨b', m2', e1, e2, e3⟩ := fin _ _ _ _ _ _ h6
    refine ⟨⟨dir, _, _, _⟩, _, b', m2', ?_, ?_, rfl, e2, e3⟩
    · simp only [bindTuple]
      rw [temporary_stored Λ tb _ _ hem]
      simp only [initTuple_xv]
    · simp only [bindTupleMs]
      rw [temporary_stored Λ tb _ _ hem]
      simp only [initTuple_xv]
      exact e1
  · -- the tuple is empty
    have h3 := Twin.swap (a := [(compressedTupleElement Λ f (m.alloc (Λ.default tb))).1]) (by simpa using h2) (by simpa using l2)
    have h4 := Twin.right (a := [.stored ⟨tb, false, false, .none⟩ m.next]) (a' := [.stored ⟨tb, false, false, .none⟩ m'.next]) (by simpa using h3) rfl
    have h5 := Twin.swap h4 h.length
    have h6 := Twin.insert h5 (by simpa using l2) tb
    obtain ⟨b', m2', e1, e2, e3⟩ := fin _ _ _ _ _ _ h6
    refine ⟨⟨dir, _, _, _⟩, _, b', m2', ?_, ?_, rfl, e2, e3⟩
    · simp only [bindTuple]
      rw [temporary_empty Λ tb _ _ hem]
    · simp only [bindTupleMs]
      rw [temporary_empty Λ tb _ _ hem]
      exact e1

theorem makeBound_bindTuple [DecidableEq B] (Λ : Lang B V) (isCT : B → Bool) (tb : B) (dir : Dir) (vs : List (Expr B)) (f : Expr B) (m : Mem V L) :
    makeBound Λ isCT tb dir vs f m = match ctad isCT vs with
      | none => none
      | some ts => match castArgs Λ ts vs m with
        | none => none
        | some (es, mc) => bindTuple Λ dir f ⟨tb, false, false, .xv, (mkElems Λ es mc).2.next⟩ (mkElems Λ es mc).1 ((mkElems Λ es mc).2.alloc (Λ.default tb)) := by
  rw [makeBound]
  rcases ctad isCT vs with _ | ts
  · rfl
  · simp only [construct]
    rcases castArgs Λ ts vs m with _ | ⟨es, mc⟩
    · rfl
    · simp only [Option.map_some, makeBase_eq]
      rcases dir with _ | _ <;> rfl

theorem makeBoundMs_bindTuple [DecidableEq B] (Λ : Lang B V) (isCT : B → Bool) (tb : B) (dir : Dir) (vs : List (Expr B)) (f : Expr B) (m : Mem V L) :
    makeBoundMs Λ isCT tb dir vs f m = match ctad isCT vs with
      | none => none
      | some ts => match castArgs Λ ts vs m with
        | none => none
        | some (es, mc) => bindTupleMs Λ dir f ⟨tb, false, false, .xv, (makeBaseMs Λ es mc).2.next⟩ (makeBaseMs Λ es mc).1 ((makeBaseMs Λ es mc).2.alloc (Λ.default tb)) := by
  rw [makeBoundMs]
  rcases ctad isCT vs with _ | ts
  · rfl
  · simp only [constructMs]
    rcases castArgs Λ ts vs m with _ | ⟨es, mc⟩ <;> rfl

theorem makeBound_twin [DecidableEq B] (Λ : Lang B V) (isCT : B → Bool) (tb : B) (dir : Dir) (vs : List (Expr B)) (f : Expr B) (m : Mem V L) (hf : f.addr < m.next) :
    (makeBound Λ isCT tb dir vs f m = none ∧ makeBoundMs Λ isCT tb dir vs f m = none) ∨
    ∃ n b m1 b' m1', m.next ≤ n ∧ makeBound Λ isCT tb dir vs f m = some (b, m1) ∧ makeBoundMs Λ isCT tb dir vs f m = some (b', m1') ∧
      b.dir = dir ∧ b'.dir = dir ∧ Twin n m1 m1' b.parts b'.parts := by
  rw [makeBound_bindTuple, makeBoundMs_bindTuple]
  rcases hts : ctad isCT vs with _ | ts
  · exact .inl ⟨rfl, rfl⟩
  · rcases hc : castArgs Λ ts vs m with _ | ⟨es, mc⟩
    · left; simp only [hc]; exact ⟨trivial, trivial⟩
    · right
      simp only [hc]
      obtain ⟨hn, hlt⟩ := castArgs_lt Λ ts vs m es mc (fun t h => (ctad_types isCT vs ts hts t h).1) hc
      have h1 := Twin.elements Λ es (Twin.start (B := B) (m := mc)) hlt
      simp only [List.nil_append] at h1
      obtain ⟨h2, -⟩ := Twin.overload Λ (ctx' := []) (by simpa using h1)
      rw [List.append_nil] at h2
      obtain ⟨b, m1, b', m1', e1, e2, e3, e4, e5⟩ := bindTuple_twin Λ dir tb f h2 (by omega)
      exact ⟨mc.next, b, m1, b', m1', hn, e1, e2, e3, e4, e5⟩

/-! ### Counting -/

/-- Copying records exactly the objects held. -/
theorem made_copy (Λ : Lang B V) (els : List (Elem B)) : ∀ m : Mem V L,
    Made m (initElems Λ true .lv els m).2 ((ownedAll els).map fun a => (false, a)) := by
  induction els with
  | nil => intro m; exact Made.refl m
  | cons el els ih =>
    intro m
    rcases el with b | ⟨ty, a⟩
    · exact ih m
    · rw [initElems]
      split
      · rename_i hl
        rw [ownedAll_ref _ _ _ hl]; exact ih m
      · rename_i hl
        rw [ownedAll_obj _ _ _ hl]
        exact (made_initFrom Λ ⟨ty.base, ty.c || true, ty.v, .lv, a⟩ m).trans (ih _)

/-- Both copies. -/
theorem made_overload (Λ : Lang B V) (els : List (Elem B)) (m : Mem V L) (n : Nat) (hF : Fresh n m els) (hn : n ≤ m.next) :
    ∃ as : List Nat, Made m (overloadClosures Λ els m).2 (as.map fun a => (false, a)) ∧ as.length = 2 * (ownedAll els).length ∧ ∀ a ∈ as, n ≤ a := by
  obtain ⟨-, -, -, -, -, o1, -⟩ := init_step Λ true .lv n els [] m hn (by simpa using hF)
  refine ⟨ownedAll els ++ ownedAll (initElems Λ true .lv els m).1, ?_, ?_, ?_⟩
  · rw [List.map_append]
    have h := (made_copy Λ els m).trans (made_copy Λ (initElems Λ true .lv els m).1 (initElems Λ true .lv els m).2)
    obtain ⟨new, h1, h2⟩ := h
    refine ⟨new, ?_, h2⟩
    rw [← h1]
    exact (killAll_spec _ _).2.2.2.1
  · rw [List.length_append, initElems_count]; omega
  · intro a ha
    rcases List.mem_append.1 ha with ha | ha
    · exact (hF.range a ha).1
    · have := o1 a ha; omega

/-- The records of two runs from `m0`: the second made `x` more copies, of objects that did not exist at first (address `N` on). -/
def Extra (N : Nat) (m0 m m' : Mem V L) (x : Nat) : Prop :=
  ∃ l l', Made m0 m l ∧ Made m0 m' l' ∧ (copied l').filter (· < N) = (copied l).filter (· < N) ∧ (movedFrom l').filter (· < N) = (movedFrom l).filter (· < N) ∧
    (movedFrom l').length = (movedFrom l).length ∧ (copied l').length = (copied l).length + x

theorem copied_app (l l' : List (Bool × Nat)) : copied (l ++ l') = copied l ++ copied l' := by simp [copied]

theorem moved_app (l l' : List (Bool × Nat)) : movedFrom (l ++ l') = movedFrom l ++ movedFrom l' := by simp [movedFrom]

theorem Extra.step {N : Nat} {m0 m m' m1 m1' : Mem V L} {x y : Nat} {a a' : List (Bool × Nat)} (h : Extra N m0 m m' x) (h1 : Made m m1 a) (h2 : Made m' m1' a')
    (e1 : (copied a').filter (· < N) = (copied a).filter (· < N)) (e2 : (movedFrom a').filter (· < N) = (movedFrom a).filter (· < N))
    (e3 : (movedFrom a').length = (movedFrom a).length) (e4 : (copied a').length = (copied a).length + y) : Extra N m0 m1 m1' (x + y) := by
  obtain ⟨l, l', q1, q2, q3, q4, q5, q6⟩ := h
  refine ⟨l ++ a, l' ++ a', q1.trans h1, q2.trans h2, ?_, ?_, ?_, ?_⟩
  · simp only [copied_app, List.filter_append, q3, e1]
  · simp only [moved_app, List.filter_append, q4, e2]
  · simp only [moved_app, List.length_append, q5, e3]
  · simp only [copied_app, List.length_append, q6, e4]; omega

theorem Extra.same {N : Nat} {m0 m m' m1 m1' : Mem V L} {x : Nat} {a : List (Bool × Nat)} (h : Extra N m0 m m' x) (h1 : Made m m1 a) (h2 : Made m' m1' a) :
    Extra N m0 m1 m1' x := h.step (y := 0) h1 h2 rfl rfl rfl rfl

/-- The constructors of `overload`, in the second run. -/
theorem Extra.overload (Λ : Lang B V) {N n : Nat} {m0 m m' : Mem V L} {x : Nat} {els' : List (Elem B)} (h : Extra N m0 m m' x) (hF : Fresh n m' els') (hn : n ≤ m'.next) (hN : N ≤ n) :
    Extra N m0 m (overloadClosures Λ els' m').2 (x + 2 * (ownedAll els').length) := by
  obtain ⟨as, a1, a2, a3⟩ := made_overload Λ els' m' n hF hn
  have hc : copied (as.map fun a => (false, a)) = as := by
    clear a1 a2 a3
    induction as with
    | nil => rfl
    | cons a as ih => simpa [copied] using ih
  have hm : movedFrom (as.map fun a => (false, a)) = [] := by
    simp [movedFrom, List.filter_eq_nil_iff]
  refine h.step (Made.refl m) a1 ?_ (by rw [hm]; rfl) (by rw [hm]; rfl) (by rw [hc, a2]; simp [copied])
  rw [hc, List.filter_eq_nil_iff.2 ?_]
  · rfl
  · intro a ha
    have := a3 a ha
    simp only [decide_eq_true_eq]; omega

/-- How an element is re-made, apart from addresses. -/
def View.kind (cat : Cat) : View B V → Option Bool
  | .obj ty _ => some (decide (cat = .xv) && !ty.c)
  | _ => none

theorem remade_kind (m : Mem V L) (cat : Cat) (els : List (Elem B)) : (els.filterMap (Elem.remade cat)).map Prod.fst = (els.map (Elem.view m)).filterMap (View.kind cat) := by
  induction els with
  | nil => rfl
  | cons el els ih =>
    rcases el with b | ⟨ty, a⟩
    · exact ih
    · by_cases hl : ty.ref = .lref
      · simp only [List.map_cons, List.filterMap_cons, Elem.remade, Elem.view, View.kind, hl, if_true, ih]
      · simp only [List.map_cons, List.filterMap_cons, Elem.remade, Elem.view, View.kind, hl, if_false, ih]

theorem remade_owned (cat : Cat) (els : List (Elem B)) : (els.filterMap (Elem.remade cat)).map Prod.snd = ownedAll els := by
  induction els with
  | nil => rfl
  | cons el els ih =>
    rcases el with b | ⟨ty, a⟩
    · exact ih
    · by_cases hl : ty.ref = .lref
      · simpa [Elem.remade, hl, ownedAll_ref] using ih
      · simpa [Elem.remade, hl, ownedAll_obj] using ih

theorem length_kinds {l l' : List (Bool × Nat)} (h : l'.map Prod.fst = l.map Prod.fst) : (copied l').length = (copied l).length ∧ (movedFrom l').length = (movedFrom l).length := by
  have hc : ∀ l : List (Bool × Nat), (copied l).length = ((l.map Prod.fst).filter fun b => !b).length := by
    intro l; rw [copied, List.filter_map, List.length_map, List.length_map]; rfl
  have hm : ∀ l : List (Bool × Nat), (movedFrom l).length = ((l.map Prod.fst).filter fun b => b).length := by
    intro l; rw [movedFrom, List.filter_map, List.length_map, List.length_map]; rfl
  rw [hc, hc, hm, hm, h]; exact ⟨rfl, rfl⟩

theorem filter_new {N n : Nat} (hN : N ≤ n) {l : List (Bool × Nat)} (h : ∀ a ∈ l.map Prod.snd, n ≤ a) :
    (copied l).filter (· < N) = [] ∧ (movedFrom l).filter (· < N) = [] := by
  constructor <;>
  · rw [List.filter_eq_nil_iff]
    intro a ha
    simp only [copied, movedFrom, List.mem_map, List.mem_filter] at ha
    obtain ⟨p, ⟨hp, -⟩, rfl⟩ := ha
    have := h p.2 (List.mem_map.2 ⟨p, hp, rfl⟩)
    simp only [decide_eq_true_eq]; omega

/-- Both runs copy or move the same. -/
theorem Extra.init (Λ : Lang B V) (cat : Cat) {N n : Nat} {m0 m m' : Mem V L} {x : Nat} {els els' : List (Elem B)} (h : Extra N m0 m m' x) (hN : N ≤ n)
    (hF : Fresh n m els) (hF' : Fresh n m' els') (hv : els'.map (Elem.view m') = els.map (Elem.view m)) :
    Extra N m0 (initElems Λ false cat els m).2 (initElems Λ false cat els' m').2 x := by
  have hk : (els'.filterMap (Elem.remade cat)).map Prod.fst = (els.filterMap (Elem.remade cat)).map Prod.fst := by
    rw [remade_kind m', remade_kind m, hv]
  obtain ⟨k1, k2⟩ := length_kinds hk
  obtain ⟨f1, f2⟩ := filter_new hN (l := els.filterMap (Elem.remade cat)) (by rw [remade_owned]; exact fun a ha => (hF.range a ha).1)
  obtain ⟨g1, g2⟩ := filter_new hN (l := els'.filterMap (Elem.remade cat)) (by rw [remade_owned]; exact fun a ha => (hF'.range a ha).1)
  exact h.step (y := 0) (made_initElems Λ cat els m) (made_initElems Λ cat els' m') (by rw [f1, g1]) (by rw [f2, g2]) k2 (by rw [k1]; rfl)

theorem Extra.captureMs (Λ : Lang B V) (e : Expr B) {N n : Nat} {m0 m m' : Mem V L} {x : Nat} {ctx ctx' : List (Elem B)} (h : Extra N m0 m m' x) (hT : Twin n m m' ctx ctx')
    (he : e.addr < n) (hN : N ≤ n) :
    Extra N m0 (compressedTupleElement Λ e m).2 (compressedTupleElementMs Λ e m').2 (x + 2 * (ownedAll [(compressedTupleElement Λ e m).1]).length) := by
  have hc := hT.capture Λ e he
  have hs := h.same (made_element Λ e m) (made_element Λ e m')
  have hcnt := (Twin.right (a := ctx) (a' := ctx') (Twin.swap (a := [(compressedTupleElement Λ e m).1]) (a' := [(compressedTupleElement Λ e m').1]) (by simpa using hc) rfl) hT.length).count
  have hF := Fresh.left (a := [(compressedTupleElement Λ e m').1]) (by simpa using hc.fresh')
  have hle := hc.le'
  rw [← hcnt, compressedTupleElementMs]
  generalize compressedTupleElement Λ e m' = y at hs hF hle ⊢
  obtain ⟨el, my⟩ := y
  rcases el with b | ⟨ty, a⟩
  · simpa [ownedAll] using hs
  · exact hs.overload Λ hF hle hN

theorem Extra.elements (Λ : Lang B V) (es : List (Expr B)) : ∀ {N n : Nat} {m0 m m' : Mem V L} {x : Nat} {ctx ctx' : List (Elem B)}, Extra N m0 m m' x → Twin n m m' ctx ctx' →
    (∀ e ∈ es, e.addr < n) → N ≤ n → Extra N m0 (mkElems Λ es m).2 (elementsMs Λ es m').2 (x + 2 * (ownedAll (mkElems Λ es m).1).length) := by
  induction es with
  | nil => intro N n m0 m m' x ctx ctx' h _ _ _; simpa [mkElems, elementsMs, ownedAll] using h
  | cons e es ih =>
    intro N n m0 m m' x ctx ctx' h hT he hN
    obtain ⟨h1, -⟩ := hT.captureMs Λ e (he e (by simp))
    have h2 := ih (h.captureMs Λ e hT (he e (by simp)) hN) h1 (fun e' h' => he e' (by simp [h'])) hN
    have hcount : (ownedAll (mkElems Λ (e :: es) m).1).length =
        (ownedAll [(compressedTupleElement Λ e m).1]).length + (ownedAll (mkElems Λ es (compressedTupleElement Λ e m).2).1).length := by
      rw [← List.length_append, ← ownedAll_append]; rfl
    rw [hcount, Nat.mul_add, ← Nat.add_assoc]
    exact h2

theorem bindTuple_extra (Λ : Lang B V) (dir : Dir) (tb : B) (f : Expr B) {N n : Nat} {m0 m m' : Mem V L} {x : Nat} {els els' : List (Elem B)} (h : Twin n m m' els els')
    (hx : Extra N m0 m m' x) (hf : f.addr < n) (hN : N ≤ n) (b : Bound B) (m1 : Mem V L) (b' : Bound B) (m1' : Mem V L)
    (hb : bindTuple Λ dir f ⟨tb, false, false, .xv, m.next⟩ els (m.alloc (Λ.default tb)) = some (b, m1))
    (hb' : bindTupleMs Λ dir f ⟨tb, false, false, .xv, m'.next⟩ els' (m'.alloc (Λ.default tb)) = some (b', m1')) :
    Extra N m0 m1 m1' (x + 4 * (ownedAll [b.f]).length + if Λ.isEmpty tb then 2 * (ownedAll els).length else 4 + 4 * (ownedAll els).length) := by
  have h1 := h.alloc tb (Λ.default tb)
  have x1 : Extra N m0 (m.alloc (Λ.default tb)) (m'.alloc (Λ.default tb)) x := hx.same (Made.of_eq rfl) (Made.of_eq rfl)
  obtain ⟨h2, l2⟩ := h1.captureMs Λ f hf
  have x2 := x1.captureMs Λ f h1 hf hN
  have h3 := Twin.swap (a := [(compressedTupleElement Λ f (m.alloc (Λ.default tb))).1]) (by simpa using h2) (by simpa using l2)
  have fin : ∀ (mA mA' : Mem V L) (l ps : List (Elem B)) (y : Nat), Twin n mA mA' l ps → Extra N m0 mA mA' y → bindTupleMs.bound dir (overloadClosures Λ ps mA') = some (b', m1') →
      Extra N m0 mA m1' (y + 2 * (ownedAll l).length) := by
    intro mA mA' l ps y hT hX hr
    have := hX.overload Λ hT.fresh' hT.le' hN
    rw [hT.count] at this
    rw [bindTupleMs.bound] at hr
    generalize overloadClosures Λ ps mA' = r at this hr
    obtain ⟨r1, r2⟩ := r
    rcases r1 with _ | ⟨f2, _ | ⟨t2, els2⟩⟩
    · simp at hr
    · simp at hr
    · simp only [Option.some.injEq, Prod.mk.injEq] at hr
      rw [← hr.2]; exact this
  rcases hem : Λ.isEmpty tb with _ | _
  · have hv3 := h3.view
    rw [List.map_append, List.map_append] at hv3
    obtain ⟨v1, -⟩ := List.append_inj hv3 (by simp [h.length])
    have x3 := x2.init Λ .xv hN h3.fresh.left h3.fresh'.left v1
    obtain ⟨h4, l4, l4'⟩ := Twin.init Λ false .xv h3 (by simp [h.length])
    rw [initElems_temporary, initElems_temporary] at h4 x3
    obtain ⟨h5, l5⟩ := Twin.overload Λ h4
    have x4 := x3.overload Λ h4.fresh'.left h4.le' hN
    have hle := h.length
    have h6 := Twin.swap h5 (by rw [l5]; rw [initElems_temporary] at l4 l4'; rw [l4, l4']; simp [hle])
    simp only [bindTuple] at hb
    rw [temporary_stored Λ tb _ _ hem] at hb
    simp only [initTuple_xv, Option.some.injEq, Prod.mk.injEq] at hb
    simp only [bindTupleMs] at hb'
    rw [temporary_stored Λ tb _ _ hem] at hb'
    simp only [initTuple_xv] at hb'
    have x5 := fin _ _ _ _ _ h6 x4 hb'
    rw [← hb.2, ← hb.1]
    have c1 := initElems_count Λ false .xv (.stored ⟨tb, false, false, .none⟩ m.next :: els) (compressedTupleElement Λ f (m.alloc (Λ.default tb))).2
    have c2 := initElems_count Λ false .xv (.stored ⟨tb, false, false, .none⟩ m'.next :: els') (compressedTupleElementMs Λ f (m'.alloc (Λ.default tb))).2
    rw [initElems_temporary] at c1 c2
    rw [ownedAll_obj _ _ els (by simp)] at c1
    rw [ownedAll_obj _ _ els' (by simp)] at c2
    rw [ownedAll_append, List.length_append, c1, c2, List.length_cons, List.length_cons, h.count] at x5
    simp only [Bool.false_eq_true, if_false]
    refine cast ?_ x5
    congr 1
    simp only [Mem.alloc]
    omega
  · have h4 := Twin.right (a := [.stored ⟨tb, false, false, .none⟩ m.next]) (a' := [.stored ⟨tb, false, false, .none⟩ m'.next]) (by simpa using h3) rfl
    have h5 := Twin.swap h4 h.length
    have h6 := Twin.insert h5 (by simpa using l2) tb
    simp only [bindTuple] at hb
    rw [temporary_empty Λ tb _ _ hem] at hb
    simp only [Option.some.injEq, Prod.mk.injEq] at hb
    simp only [bindTupleMs] at hb'
    rw [temporary_empty Λ tb _ _ hem] at hb'
    have x5 := fin _ _ _ _ _ h6 x2 hb'
    rw [ownedAll_append, List.length_append, ownedAll_empty] at x5
    rw [← hb.2, ← hb.1]
    simp only [if_true]
    refine cast ?_ x5
    congr 1
    omega

theorem bindTuple_f (Λ : Lang B V) (dir : Dir) (tb : B) (f : Expr B) (a : Nat) (els : List (Elem B)) (m : Mem V L) (b : Bound B) (m1 : Mem V L)
    (hb : bindTuple Λ dir f ⟨tb, false, false, .xv, a⟩ els m = some (b, m1)) : b.f = (compressedTupleElement Λ f m).1 := by
  simp only [bindTuple] at hb
  rcases hem : Λ.isEmpty tb with _ | _
  · rw [temporary_stored Λ tb _ _ hem] at hb
    simp only [initTuple_xv, Option.some.injEq, Prod.mk.injEq] at hb
    rw [← hb.1]
  · rw [temporary_empty Λ tb _ _ hem] at hb
    simp only [Option.some.injEq, Prod.mk.injEq] at hb
    rw [← hb.1]

/-- The number of additional copies. -/
theorem makeBound_extra [DecidableEq B] (Λ : Lang B V) (isCT : B → Bool) (tb : B) (dir : Dir) (vs : List (Expr B)) (f : Expr B) (m : Mem V L) (hf : f.addr < m.next)
    (hE : Λ.isEmpty tb = vs.all fun e => Λ.isEmpty e.base) (b : Bound B) (m1 : Mem V L) (b' : Bound B) (m1' : Mem V L)
    (hb : makeBound Λ isCT tb dir vs f m = some (b, m1)) (hb' : makeBoundMs Λ isCT tb dir vs f m = some (b', m1')) :
    Extra m.next m m1 m1' (8 * (vs.filter fun e => !Λ.isEmpty e.base).length + 4 * (if Λ.isEmpty f.base then 0 else if f.cat = .xv then 1 else 0) +
      4 * (if Λ.isEmpty tb then 0 else 1)) := by
  rw [makeBound_bindTuple] at hb
  rw [makeBoundMs_bindTuple] at hb'
  rcases hts : ctad isCT vs with _ | ts
  · simp [hts] at hb
  · simp only [hts] at hb hb'
    rcases hc : castArgs Λ ts vs m with _ | ⟨es, mc⟩
    · simp [hc] at hb
    · simp only [hc] at hb hb'
      have ht := ctad_types isCT vs ts hts
      obtain ⟨hn, hlt⟩ := castArgs_lt Λ ts vs m es mc (fun t h => (ht t h).1) hc
      obtain ⟨c1, c2, c3⟩ := made_castArgs Λ ts vs m es mc (fun t h => (ht t h).1) hc
      obtain ⟨b1, -⟩ := castArgs_bases Λ ts vs m es mc (fun t h => (ht t h).1) hc
      have hcc : ∀ e ∈ es, e.c = false := by
        intro e he
        have : e.c ∈ es.map fun e => e.c := List.mem_map.2 ⟨e, he, rfl⟩
        rw [c3, List.mem_map] at this
        obtain ⟨t, h, h'⟩ := this
        rw [← h', (ht t h).2]
      obtain ⟨as, a1, -, a3⟩ := mkElems_remade Λ es mc fun e he => ⟨(c2 e he).1, hcc e he⟩
      have hlen : (es.filter fun e => !Λ.isEmpty e.base).length = (vs.filter fun e => !Λ.isEmpty e.base).length := by
        have : ∀ l : List (Expr B), (l.filter fun e => !Λ.isEmpty e.base).length = ((l.map fun e => e.base).filter fun b => !Λ.isEmpty b).length := by
          intro l
          rw [List.filter_map, List.length_map]
          rfl
        rw [this, b1, ← this]
      have hown : (ownedAll (mkElems Λ es mc).1).length = (vs.filter fun e => !Λ.isEmpty e.base).length := by
        rw [← remade_owned .xv, a1, List.map_map, List.length_map, a3, hlen]
      have x0 : Extra m.next m mc mc 0 := ⟨_, _, c1, c1, rfl, rfl, rfl, rfl⟩
      have h0 : Twin (B := B) mc.next mc mc [] [] := Twin.start
      have h1 := Twin.elements Λ es h0 hlt
      have x1 := x0.elements Λ es h0 hlt hn
      simp only [List.nil_append] at h1
      obtain ⟨h2, -⟩ := Twin.overload Λ (ctx' := []) (by simpa using h1)
      rw [List.append_nil] at h2
      have x2 := x1.overload Λ h1.fresh' h1.le' hn
      have x3 := bindTuple_extra Λ dir tb f h2 x2 (by omega) hn b m1 b' m1' hb hb'
      rw [bindTuple_f Λ dir tb f _ _ _ b m1 hb, element_count, h1.count, hown] at x3
      refine cast ?_ x3
      congr 1
      rcases htb : Λ.isEmpty tb with _ | _
      · simp only [Bool.false_eq_true, if_false]; omega
      · rw [htb] at hE
        have : vs.filter (fun e => !Λ.isEmpty e.base) = [] := by
          rw [List.filter_eq_nil_iff]
          intro e he
          simp [List.all_eq_true.1 hE.symm e he]
        simp only [this, List.length_nil, if_true]

/-! ### Overloads -/

theorem copyAll_spec (Λ : Lang B V) (xs : List (B × Nat)) : ∀ m : Mem V L, (∀ x ∈ xs, x.2 < m.next) →
    Grows (fun _ => False) m (copyAll Λ xs m).2 ∧ Made m (copyAll Λ xs m).2 (xs.map fun x => (false, x.2)) ∧
    Pairs (fun x y : B × Nat => y.1 = x.1 ∧ m.next ≤ y.2 ∧ y.2 < (copyAll Λ xs m).2.next ∧ (copyAll Λ xs m).2.get y.2 = m.get x.2) xs (copyAll Λ xs m).1 := by
  induction xs with
  | nil => intro m _; exact ⟨Grows.refl _ _, Made.refl m, rfl, by simp⟩
  | cons x xs ih =>
    intro m hlt
    have hx := hlt x (by simp)
    obtain ⟨g1, n1, v1⟩ := initFrom_grows Λ ⟨x.1, false, false, .lv, x.2⟩ m hx
    have g1 : Grows (fun _ => False) m (Λ.initFrom ⟨x.1, false, false, .lv, x.2⟩ m) := g1.mono (by rintro a ⟨-, h, -⟩; cases h)
    obtain ⟨g2, m2, p2, q2⟩ := ih (Λ.initFrom ⟨x.1, false, false, .lv, x.2⟩ m) (fun y hy => by have := hlt y (by simp [hy]); omega)
    have hn2 := g2.next
    refine ⟨g1.trans g2, (made_initFrom Λ _ m).trans m2, by simp [copyAll, p2], ?_⟩
    intro i y hi
    cases i with
    | zero =>
      simp only [List.getElem?_cons_zero, Option.some.injEq] at hi
      subst hi
      refine ⟨(x.1, m.next), rfl, rfl, Nat.le_refl _, by simp only [copyAll]; omega, ?_⟩
      show (copyAll Λ xs _).2.get m.next = _
      rw [g2.frame _ (by omega) (by simp), v1]
    | succ i =>
      simp only [List.getElem?_cons_succ] at hi
      obtain ⟨z, z1, z2, z3, z4, z5⟩ := q2 i y hi
      refine ⟨z, by simpa [copyAll] using z1, z2, by omega, z4, ?_⟩
      have := hlt y (by simp [List.mem_of_getElem? hi])
      show (copyAll Λ xs _).2.get z.2 = _
      rw [z5, g1.frame _ this (by simp)]

/-- The new objects are the copies, one after another. -/
theorem copyAll_new (Λ : Lang B V) (xs : List (B × Nat)) : ∀ m : Mem V L, (copyAll Λ xs m).2.next = m.next + xs.length ∧
    ∀ a, m.next ≤ a → a < m.next + xs.length → a ∈ (copyAll Λ xs m).1.map (·.2) := by
  induction xs with
  | nil => intro m; exact ⟨rfl, fun a h1 h2 => by simp at h2; omega⟩
  | cons x xs ih =>
    intro m
    have hn1 : (Λ.initFrom ⟨x.1, false, false, .lv, x.2⟩ m).next = m.next + 1 := rfl
    obtain ⟨i1, i2⟩ := ih (Λ.initFrom ⟨x.1, false, false, .lv, x.2⟩ m)
    refine ⟨by simp only [copyAll, i1, hn1, List.length_cons]; omega, fun a h1 h2 => ?_⟩
    rw [List.length_cons] at h2
    by_cases he : a = m.next
    · simp [copyAll, he]
    · simp only [copyAll, List.map_cons, List.mem_cons]
      right; exact i2 a (by omega) (by omega)

theorem getByType_twice {F W : Type} [DecidableEq F] (args : List (F × W)) (i j : Nat) (hij : i < j) (g : F) (v w : W) (hi : args[i]? = some (g, v)) (hj : args[j]? = some (g, w)) :
    Ovl.getByType args g = none := by
  have hlen : 2 ≤ (args.filter fun a => decide (a.1 = g)).length := by
    have hs : [(g, v), (g, w)].Sublist args := by
      have h1 : args = args.take j ++ args.drop j := (List.take_append_drop j args).symm
      rw [h1]
      have a1 : (g, v) ∈ args.take j := by
        rw [List.mem_take_iff_getElem]
        obtain ⟨hl, he⟩ := List.getElem?_eq_some_iff.1 hi
        exact ⟨i, by omega, he⟩
      have a2 : (g, w) ∈ args.drop j := by
        rw [List.mem_iff_getElem?]
        exact ⟨0, by simpa using hj⟩
      exact (List.singleton_sublist.2 a1).append (List.singleton_sublist.2 a2)
    have := (hs.filter fun a => decide (a.1 = g)).length_le
    simpa using this
  rw [Ovl.getByType]
  generalize args.filter (fun a => decide (a.1 = g)) = q at hlen ⊢
  rcases q with _ | ⟨a, _ | ⟨b, l⟩⟩
  · rfl
  · simp at hlen
  · rfl

theorem mapM_none {α β : Type} (f : α → Option β) (l : List α) (a : α) (ha : a ∈ l) (h : f a = none) : l.mapM f = none := by
  induction l with
  | nil => simp at ha
  | cons x l ih =>
    rw [List.mapM_cons]
    rcases List.mem_cons.1 ha with rfl | ha
    · rw [h]; rfl
    · rcases f x with _ | y
      · rfl
      · rw [ih ha]; rfl

theorem constructMsvc_none {F W : Type} [DecidableEq F] (isEmpty : F → Bool) (args : List (F × W)) (h : ¬ (args.map (·.1)).Nodup) : Ovl.constructMsvc isEmpty args = none := by
  rw [List.Nodup, List.pairwise_iff_getElem] at h
  simp only [Classical.not_forall, ne_eq, Classical.not_not, List.length_map, List.getElem_map] at h
  obtain ⟨i, j, hi, hj, hij, he⟩ := h
  have hn := getByType_twice args i j hij args[j].1 args[i].2 args[j].2 (by rw [List.getElem?_eq_getElem (by omega), ← he]) (by rw [List.getElem?_eq_getElem hj])
  rw [Ovl.constructMsvc]
  refine mapM_none _ _ args[j].1 ?_ (by rw [hn]; rfl)
  obtain ⟨_, _, _, hperm, _⟩ := TL.C38_stable_partition (args.map (·.1)) (TL.predicate isEmpty)
  exact hperm.mem_iff.2 (List.mem_map.2 ⟨args[j], List.getElem_mem hj, rfl⟩)

end Pigro.Cxx
