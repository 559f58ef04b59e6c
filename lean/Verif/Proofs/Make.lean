import Verif.Proofs.Calls
import Verif.Proofs.Construct
/-!
# Making bound callables: compressed_tuple{v...} >> f
-/
namespace Pigro.Cxx
variable {B V L R : Type}

/-- The element of a copied or moved tuple. -/
def Reinit (m m' : Mem V L) (el el' : Elem B) : Prop :=
  match el with
  | .empty b => el' = .empty b
  | .stored ty a => if ty.ref = .lref then el' = .stored ty a
      else ∃ a', el' = .stored ty a' ∧ m.next ≤ a' ∧ a' < m'.next ∧ m'.get a' = m.get a

theorem Elem.owned_stored (ty : Ty B) (a : Nat) (h : ty.ref ≠ .lref) : (Elem.stored ty a).owned = some a := by
  simp [Elem.owned, h]

theorem initElems_spec (Λ : Lang B V) (c : Bool) (cat : Cat) (els : List (Elem B)) : ∀ (m : Mem V L),
    (∀ el ∈ els, ∀ a, el.owned = some a → a < m.next) →
    els.Pairwise (fun x y => ∀ a b, x.owned = some a → y.owned = some b → a ≠ b) →
    let r := initElems Λ c cat els m
    Grows (fun a => ∃ el ∈ els, el.owned = some a) m r.2 ∧ Pairs (Reinit m r.2) els r.1 ∧
    (∀ el ∈ r.1, ∀ a, el.owned = some a → m.next ≤ a ∧ a < r.2.next) ∧
    r.1.Pairwise (fun x y => ∀ a b, x.owned = some a → y.owned = some b → a < b) := by
  induction els with
  | nil => intro m _ _; exact ⟨Grows.refl _ _, ⟨rfl, by simp⟩, by simp [initElems], .nil⟩
  | cons el els ih =>
    intro m hlt hpw
    rw [List.pairwise_cons] at hpw
    have hlt' : ∀ el ∈ els, ∀ a, el.owned = some a → a < m.next := fun e he => hlt e (by simp [he])
    have keep : ∀ (el' : Elem B), el'.owned = none → el.owned = none → Reinit (L := L) m m el el' →
        initElems (L := L) Λ c cat (el :: els) m = (el' :: (initElems Λ c cat els m).1, (initElems Λ c cat els m).2) →
        (∀ m' : Mem V L, m.next ≤ m'.next → Reinit m m' el el') →
        let r := initElems Λ c cat (el :: els) m
        Grows (fun a => ∃ x ∈ el :: els, x.owned = some a) m r.2 ∧ Pairs (Reinit m r.2) (el :: els) r.1 ∧
        (∀ x ∈ r.1, ∀ a, x.owned = some a → m.next ≤ a ∧ a < r.2.next) ∧
        r.1.Pairwise (fun x y => ∀ a b, x.owned = some a → y.owned = some b → a < b) := by
      intro el' ho ho' _ hr hre
      obtain ⟨g, p, o, w⟩ := ih m hlt' hpw.2
      rw [hr]
      refine ⟨g.mono fun a ⟨x, hx, hxa⟩ => ⟨x, by simp [hx], hxa⟩, ⟨by simp [p.1], ?_⟩, ?_, ?_⟩
      · intro i x hi
        cases i with
        | zero =>
          simp only [List.getElem?_cons_zero, Option.some.injEq] at hi
          subst hi
          exact ⟨el', by simp, hre _ g.next⟩
        | succ i =>
          simp only [List.getElem?_cons_succ] at hi ⊢
          exact p.2 i x hi
      · intro x hx a ha
        rcases List.mem_cons.1 hx with rfl | hx
        · rw [ho] at ha; simp at ha
        · exact o x hx a ha
      · exact List.pairwise_cons.2 ⟨fun y _ a b ha => by rw [ho] at ha; simp at ha, w⟩
    rcases el with b | ⟨ty, a⟩
    · exact keep (.empty b) rfl rfl rfl rfl (fun _ _ => rfl)
    · by_cases hl : ty.ref = .lref
      · refine keep (.stored ty a) (by simp [Elem.owned, hl]) (by simp [Elem.owned, hl]) (by simp [Reinit, hl]) ?_ ?_
        · rw [initElems, hl]
        · intro m' _; simp [Reinit, hl]
      · have hr : initElems (L := L) Λ c cat (.stored ty a :: els) m =
            (.stored ty m.next :: (initElems Λ c cat els (Λ.initFrom ⟨ty.base, ty.c || c, ty.v, cat, a⟩ m)).1,
              (initElems Λ c cat els (Λ.initFrom ⟨ty.base, ty.c || c, ty.v, cat, a⟩ m)).2) := by
          rw [initElems]
          split
          · exact absurd ‹_› hl
          · rfl
        have ha : a < m.next := hlt _ (by simp) a (Elem.owned_stored ty a hl)
        obtain ⟨g1, n1, v1⟩ := initFrom_grows Λ ⟨ty.base, ty.c || c, ty.v, cat, a⟩ m ha
        simp only at v1
        obtain ⟨g, p, o, w⟩ := ih (Λ.initFrom ⟨ty.base, ty.c || c, ty.v, cat, a⟩ m)
          (fun e he x hx => by have := hlt' e he x hx; omega) hpw.2
        have hn := g.next
        rw [hr]
        refine ⟨?_, ⟨by simp [p.1], ?_⟩, ?_, ?_⟩
        · refine (g1.mono ?_).trans (g.mono fun x ⟨y, hy, hyx⟩ => ⟨y, by simp [hy], hyx⟩)
          rintro x ⟨h, -⟩
          exact ⟨.stored ty a, by simp, by rw [Elem.owned_stored ty a hl, ← h]⟩
        · intro i x hi
          cases i with
          | zero =>
            simp only [List.getElem?_cons_zero, Option.some.injEq] at hi
            subst hi
            refine ⟨.stored ty m.next, by simp, ?_⟩
            simp only [Reinit, hl, if_false]
            refine ⟨m.next, rfl, Nat.le_refl _, by omega, ?_⟩
            rw [g.frame _ (by omega), v1]
            rintro ⟨y, hy, hyx⟩
            have := hlt' y hy _ hyx
            omega
          | succ i =>
            simp only [List.getElem?_cons_succ] at hi ⊢
            obtain ⟨x', h1, h2⟩ := p.2 i x hi
            refine ⟨x', h1, ?_⟩
            rcases x with b | ⟨ty', a'⟩
            · exact h2
            · simp only [Reinit] at h2 ⊢
              split at h2
              · rename_i hl'
                simp only [hl', if_true]
                exact h2
              · rename_i hl'
                obtain ⟨a'', q1, q2, q3, q4⟩ := h2
                simp only [hl', if_false]
                refine ⟨a'', q1, by omega, q3, ?_⟩
                have hmem := List.mem_of_getElem? hi
                have hown := Elem.owned_stored ty' a' hl'
                have := hlt' _ hmem a' hown
                rw [q4, g1.frame a' (by omega)]
                rintro ⟨h, -⟩
                exact hpw.1 _ hmem a a' (Elem.owned_stored ty a hl) hown h
        · intro x hx y hy
          rcases List.mem_cons.1 hx with rfl | hx
          · rw [Elem.owned_stored ty _ hl] at hy
            simp only [Option.some.injEq] at hy
            subst hy
            exact ⟨Nat.le_refl _, by simp only; omega⟩
          · have := o x hx y hy
            exact ⟨by omega, this.2⟩
        · refine List.pairwise_cons.2 ⟨?_, w⟩
          intro y hy x z hx hz
          rw [Elem.owned_stored ty _ hl] at hx
          simp only [Option.some.injEq] at hx
          subst hx
          have := o y hy z hz
          omega

theorem initFrom_world (Λ : Lang B V) (e : Expr B) (m : Mem V L) : (Λ.initFrom e m).world = m.world := by
  simp only [Lang.initFrom]
  split <;> rfl

theorem fwdCapture_world (Λ : Lang B V) (e : Expr B) (m : Mem V L) : (fwdCapture Λ e m).2.world = m.world := by
  simp only [fwdCapture]
  split
  · rfl
  · exact initFrom_world Λ e m

theorem construct_world [DecidableEq B] (Λ : Lang B V) (ts : List (Ty B)) (es : List (Expr B)) (m m' : Mem V L)
    (els : List (Elem B)) (h : construct Λ ts es m = some (els, m')) : m'.world = m.world := by
  have h1 : ∀ (es : List (Expr B)) (m : Mem V L), (mkElems Λ es m).2.world = m.world := by
    intro es
    induction es with
    | nil => intro m; rfl
    | cons e es ih =>
      intro m
      simp only [mkElems]
      rw [ih]
      simp only [compressedTupleElement]
      split
      · rfl
      · exact fwdCapture_world Λ e m
  have h2 : ∀ (ts : List (Ty B)) (es : List (Expr B)) (m : Mem V L) (es' : List (Expr B)) (m' : Mem V L),
      castArgs Λ ts es m = some (es', m') → m'.world = m.world := by
    intro ts
    induction ts with
    | nil =>
      intro es m es' m' h
      cases es <;> simp [castArgs] at h
      rw [h.2]
    | cons t ts ih =>
      intro es m es' m' h
      cases es with
      | nil => simp [castArgs] at h
      | cons e es =>
        simp only [castArgs] at h
        rcases hc : castArg Λ t e m with _ | ⟨x, m1⟩
        · simp [hc] at h
        rcases hcs : castArgs Λ ts es m1 with _ | ⟨xs, m2⟩
        · simp [hc, hcs] at h
        simp only [hc, hcs, Option.some.injEq, Prod.mk.injEq] at h
        obtain ⟨rfl, rfl⟩ := h
        rw [ih es m1 xs m2 hcs]
        rcases t with ⟨b, c, v, rf⟩
        cases rf <;> simp only [castArg] at hc <;> split at hc <;>
          simp only [Option.some.injEq, Prod.mk.injEq, reduceCtorEq] at hc <;> rw [← hc.2]
        exact initFrom_world Λ _ m
  simp only [construct, Option.map_eq_some_iff] at h
  obtain ⟨⟨es', m1⟩, hc, hm⟩ := h
  have := h1 es' m1
  rw [← makeBase_eq, hm] at this
  exact this.trans (h2 ts es m es' m1 hc)

/-- An element holding a callable or tuple made from `e`. -/
theorem element_holds (Λ : Lang B V) (e : Expr B) (m : Mem V L) (he : e.addr < m.next)
    (hE : Λ.isEmpty e.base = true → m.get e.addr = Λ.emptyVal e.base) :
    let r := compressedTupleElement Λ e m
    Grows (Moves e) m r.2 ∧ r.1.holds Λ r.2 (m.get e.addr) ∧
    ((r.1 = .empty e.base ∧ Λ.isEmpty e.base = true) ∨ (Λ.isEmpty e.base = false ∧ ∃ a, a < r.2.next ∧
      ((e.cat = .lv ∧ a = e.addr ∧ r.1 = .stored ⟨e.base, e.c, e.v, .lref⟩ a) ∨
       (e.cat = .xv ∧ m.next ≤ a ∧ r.1 = .stored ⟨e.base, e.c, e.v, .none⟩ a)))) := by
  have hi := initFrom_grows Λ e m he
  rcases e with ⟨b, c, v, cat, addr⟩
  simp only at he hE hi ⊢
  cases hb : Λ.isEmpty b
  · cases cat
    · have hr : compressedTupleElement Λ ⟨b, c, v, .lv, addr⟩ m = (.stored ⟨b, c, v, .lref⟩ addr, m) := by
        simp [compressedTupleElement, Lang.emptyTy, Expr.type, Ty.removeCvref, Ty.removeReference, Ty.removeCv, hb,
          fwdCapture, deduceFwd]
      rw [hr]
      exact ⟨Grows.refl _ _, rfl, .inr ⟨rfl, addr, he, .inl ⟨rfl, rfl, rfl⟩⟩⟩
    · have hr : compressedTupleElement Λ ⟨b, c, v, .xv, addr⟩ m =
          (.stored ⟨b, c, v, .none⟩ m.next, Λ.initFrom ⟨b, c, v, .xv, addr⟩ m) := by
        simp [compressedTupleElement, Lang.emptyTy, Expr.type, Ty.removeCvref, Ty.removeReference, Ty.removeCv, hb,
          fwdCapture, deduceFwd]
      rw [hr]
      exact ⟨hi.1, hi.2.2, .inr ⟨rfl, m.next, by simp only [hi.2.1]; omega, .inr ⟨rfl, Nat.le_refl _, rfl⟩⟩⟩
  · have hr : compressedTupleElement Λ ⟨b, c, v, cat, addr⟩ m = (.empty b, m) := by
      simp [compressedTupleElement, Lang.emptyTy, Expr.type, Ty.removeCvref, Ty.removeReference, Ty.removeCv, hb]
    rw [hr]
    exact ⟨Grows.refl _ _, hE hb, .inl ⟨rfl, rfl⟩⟩

/-- Objects of elements that all own what they hold. -/
theorem separate_of_owned (b : Bound B) (next lo : Nat)
    (hown : ∀ (i : Nat) ty a, b.els[i]? = some (.stored ty a) → ty.ref ≠ .lref)
    (hpw : b.els.Pairwise (fun x y => ∀ a b, x.owned = some a → y.owned = some b → a < b))
    (hr : ∀ el ∈ b.els, ∀ a, el.owned = some a → lo ≤ a ∧ a < next)
    (hf : ∀ ty a, b.f = .stored ty a → a < next ∧ ∀ (i : Nat) ty' a', b.els[i]? = some (.stored ty' a') → a ≠ a') :
    b.Separate next := by
  have hobj : ∀ el ∈ b.els, el.object = el.owned := by
    intro el hel
    obtain ⟨i, hi⟩ := List.mem_iff_getElem?.1 hel
    rcases el with x | ⟨ty, a⟩
    · rfl
    · rw [Elem.owned_stored ty a (hown i ty a hi)]; rfl
  have hnd : ∀ els : List (Elem B), els.Pairwise (fun x y => ∀ a b, x.owned = some a → y.owned = some b → a < b) →
      (∀ el ∈ els, el.object = el.owned) → (els.filterMap Elem.object).Nodup := by
    intro els
    induction els with
    | nil => intro _ _; simp
    | cons el els ih =>
      intro hp ho
      rw [List.pairwise_cons] at hp
      have := ih hp.2 (fun e he => ho e (by simp [he]))
      rw [List.filterMap_cons]
      split
      · exact this
      · rename_i a ha
        refine List.nodup_cons.2 ⟨?_, this⟩
        intro hmem
        obtain ⟨e, he, hea⟩ := List.mem_filterMap.1 hmem
        have h1 := hp.1 e he a a (by rw [← ho el (by simp)]; exact ha) (by rw [← ho e (by simp [he])]; exact hea)
        omega
  have hin : ∀ a ∈ b.els.filterMap Elem.object, ∃ i : Nat, ∃ ty, b.els[i]? = some (.stored ty a) := by
    intro a ha
    obtain ⟨e, he, hea⟩ := List.mem_filterMap.1 ha
    obtain ⟨i, hi⟩ := List.mem_iff_getElem?.1 he
    rcases e with x | ⟨ty, a'⟩
    · simp [Elem.object] at hea
    · simp only [Elem.object, Option.some.injEq] at hea
      subst hea
      exact ⟨i, ty, hi⟩
  have hlt : ∀ a ∈ b.els.filterMap Elem.object, a < next := by
    intro a ha
    obtain ⟨e, he, hea⟩ := List.mem_filterMap.1 ha
    exact (hr e he a (by rw [← hobj e he]; exact hea)).2
  constructor
  · rw [List.filterMap_cons]
    split
    · exact hnd b.els hpw hobj
    · rename_i a ha
      rcases hbf : b.f with x | ⟨ty, a'⟩
      · rw [hbf] at ha; simp [Elem.object] at ha
      · rw [hbf] at ha
        simp only [Elem.object, Option.some.injEq] at ha
        subst ha
        refine List.nodup_cons.2 ⟨?_, hnd b.els hpw hobj⟩
        intro hmem
        obtain ⟨i, ty', hi⟩ := hin a' hmem
        exact (hf ty a' hbf).2 i ty' a' hi rfl
  · intro a ha
    rw [List.filterMap_cons] at ha
    split at ha
    · exact hlt a ha
    · rename_i a' ha'
      rcases List.mem_cons.1 ha with rfl | h
      · rcases hbf : b.f with x | ⟨ty, a'⟩
        · rw [hbf] at ha'; simp [Elem.object] at ha'
        · rw [hbf] at ha'
          simp only [Elem.object, Option.some.injEq] at ha'
          subst ha'
          exact (hf ty a' hbf).1
      · exact hlt a h

theorem HoldAll.of_getElem {Λ : Lang B V} {m : Mem V L} {els : List (Elem B)} {es : List (Expr B)} {m0 : Mem V L}
    (hl : es.length = els.length)
    (h : ∀ (i : Nat) (el : Elem B) (e : Expr B), els[i]? = some el → es[i]? = some e → el.holds Λ m (m0.get e.addr)) :
    HoldAll Λ m els (es.map fun e => m0.get e.addr) := by
  refine ⟨by simpa using hl, ?_⟩
  intro i el hi
  have hil : i < es.length := by have := (List.getElem?_eq_some_iff.1 hi).1; omega
  exact ⟨m0.get es[i].addr, by simp [hil], h i el es[i] hi (by simp [hil])⟩

theorem map_hasState {Λ : Lang B V} {els : List (Elem B)} {es : List (Expr B)} (hl : els.length = es.length)
    (h : ∀ (i : Nat) (el : Elem B) (e : Expr B), els[i]? = some el → es[i]? = some e → el.hasState = !Λ.isEmpty e.base) :
    els.map Elem.hasState = es.map fun e => !Λ.isEmpty e.base := by
  apply List.ext_getElem (by simp [hl])
  intro i h1 h2
  simp only [List.length_map] at h1 h2
  simp only [List.getElem_map]
  exact h i _ _ (by simp [h1]) (by simp [h2])

/-- `compressed_tuple{ v... } >> f` and `<<`. -/
theorem makeBound_spec_all [DecidableEq B] (Λ : Lang B V) (isCT : B → Bool) (tb : B) (dir : Dir) (es : List (Expr B)) (f : Expr B)
    (m : Mem V L) (hlt : ∀ e ∈ es, e.addr < m.next) (hf : f.addr < m.next)
    (hE : ∀ e ∈ es, Λ.isEmpty e.base = true → m.get e.addr = Λ.emptyVal e.base)
    (hEf : Λ.isEmpty f.base = true → m.get f.addr = Λ.emptyVal f.base)
    (hlone : ∀ e, es = [e] → isCT e.base = false)
    (htb : Λ.isEmpty tb = es.all fun e => Λ.isEmpty e.base) :
    ∃ b m', makeBound Λ isCT tb dir es f m = some (b, m') ∧ b.dir = dir ∧ b.els.length = es.length ∧
      b.ConstOk false ∧ b.Separate m'.next ∧ b.WF ∧
      b.tupleConst false = false ∧ (∀ ty a, b.f = .stored ty a → ty.c = f.c) ∧ (∀ (i : Nat) ty a, b.els[i]? = some (.stored ty a) → ty.c = false) ∧
      b.f.holds Λ m' (m.get f.addr) ∧ HoldAll Λ m' b.els (es.map fun e => m.get e.addr) ∧ m'.world = m.world ∧
      m.next ≤ m'.next ∧ (∀ ty a, b.f = .stored ty a → a = f.addr ∨ m.next ≤ a) ∧
      (∀ (i : Nat) ty a, b.els[i]? = some (.stored ty a) → m.next ≤ a) ∧ b.f.hasState = !Λ.isEmpty f.base ∧
      (b.els.map Elem.hasState = es.map fun e => !Λ.isEmpty e.base) ∧
      (f.v = false → ∀ c, b.ConstOk c) ∧
      (∀ (i : Nat) el, b.els[i]? = some el → ∃ e, es[i]? = some e ∧ (el = .empty e.base ∨ ∃ a, el = .stored ⟨e.base, false, false, .none⟩ a)) := by
  have hts : ctad isCT es = some (es.map fun e => e.type.removeCvref) := by
    rcases es with _ | ⟨e, _ | ⟨e', es⟩⟩
    · rfl
    · simp [ctad, hlone e rfl]
    · rfl
  have htot := construct_total Λ (es.map fun e => e.type.removeCvref) es m (by simp) (by
    intro i t e ht he
    rw [List.getElem?_map, he] at ht
    simp only [Option.map_some, Option.some.injEq] at ht
    subst ht
    exact ⟨rfl, fun h => absurd rfl h⟩)
  obtain ⟨⟨els, m1⟩, hc⟩ := Option.isSome_iff_exists.1 htot
  have hnone : ∀ t ∈ es.map (fun e => e.type.removeCvref), t.ref = .none ∧ t.c = false ∧ t.v = false := by
    intro t ht
    obtain ⟨e, -, rfl⟩ := List.mem_map.1 ht
    simp [Ty.removeCvref, Ty.removeReference, Ty.removeCv]
  obtain ⟨c1, c2, c3, c4, c5, c6, -⟩ := construct_spec Λ _ es m m1 els hlt
    (fun i j t t' e e' _ ht _ hrr => by have := (hnone t (List.mem_of_getElem? ht)).1; rw [this] at hrr; simp at hrr) hc
  have cw := construct_world Λ _ es m m1 els hc
  rw [List.length_map] at c1 c2
  -- the elements of the temporary tuple
  have hels : ∀ (i : Nat) (el : Elem B) (e : Expr B), els[i]? = some el → es[i]? = some e →
      (Λ.isEmpty e.base = true ∧ el = .empty e.base) ∨ (Λ.isEmpty e.base = false ∧
        ∃ a, el = .stored ⟨e.base, false, false, .none⟩ a ∧ m.next ≤ a ∧ a < m1.next ∧ m1.get a = m.get e.addr) := by
    intro i el e hi he
    obtain ⟨el', h1, -, h3⟩ := c5 i e.type.removeCvref e (by simp [he]) he
    rw [hi] at h1
    simp only [Option.some.injEq] at h1
    subst h1
    have hbase : e.type.removeCvref = ⟨e.base, false, false, .none⟩ := by
      simp [Ty.removeCvref, Ty.removeReference, Ty.removeCv, Expr.type]
    rw [hbase] at h3
    cases hb : Λ.isEmpty e.base <;> simp only [hb, Bool.false_eq_true, if_false, if_true, reduceCtorEq] at h3
    · obtain ⟨a, q1, q2, q3, q4⟩ := h3
      exact .inr ⟨rfl, a, q1, q2, q3, q4⟩
    · exact .inl ⟨rfl, h3⟩
  have hels' : ∀ (i : Nat) (el : Elem B), els[i]? = some el → ∃ e, es[i]? = some e ∧
      ((Λ.isEmpty e.base = true ∧ el = .empty e.base) ∨ (Λ.isEmpty e.base = false ∧
        ∃ a, el = .stored ⟨e.base, false, false, .none⟩ a ∧ m.next ≤ a ∧ a < m1.next ∧ m1.get a = m.get e.addr)) := by
    intro i el hi
    have hil : i < es.length := by have := (List.getElem?_eq_some_iff.1 hi).1; omega
    exact ⟨es[i], by simp [hil], hels i el es[i] hi (by simp [hil])⟩
  have hown : ∀ el ∈ els, ∀ a, el.owned = some a → m.next ≤ a ∧ a < m1.next := by
    intro el hel a ha
    obtain ⟨i, hi⟩ := List.mem_iff_getElem?.1 hel
    obtain ⟨e, -, ⟨-, rfl⟩ | ⟨-, a', rfl, q2, q3, -⟩⟩ := hels' i el hi
    · simp [Elem.owned] at ha
    · simp [Elem.owned] at ha
      omega
  have hm1f : ∀ a < m.next, m1.get a = m.get a := fun a ha => c4 a ha (fun i t e ht _ hrr => by
    have := (hnone t (List.mem_of_getElem? ht)).1; rw [this] at hrr; simp at hrr)
  -- the tuple object
  have ga := Grows.alloc (fun _ => False) m1 (Λ.default tb)
  have na : (m1.alloc (Λ.default tb)).next = m1.next + 1 := rfl
  -- the callable
  obtain ⟨gf, hfh, hfd⟩ := element_holds Λ f (m1.alloc (Λ.default tb)) (by omega) (by
    intro h
    rw [ga.frame _ (by omega) (by simp), hm1f _ hf]
    exact hEf h)
  have hfval : (m1.alloc (Λ.default tb)).get f.addr = m.get f.addr := by
    rw [ga.frame _ (by omega) (by simp), hm1f _ hf]
  rw [hfval] at hfh
  have nf := gf.next
  generalize hF : compressedTupleElement Λ f (m1.alloc (Λ.default tb)) = F at gf hfh hfd nf
  obtain ⟨fel, mf⟩ := F
  simp only at gf hfh hfd nf
  have hfw := gf.world
  have hmake : makeBound Λ isCT tb dir es f m =
      bindTuple Λ dir f ⟨tb, false, false, .xv, m1.next⟩ els (m1.alloc (Λ.default tb)) := by
    simp only [makeBound, hts, hc]
    cases dir <;> rfl
  rw [hmake]
  have hfobj : ∀ ty a, fel = .stored ty a → ty.c = f.c ∧ a < mf.next ∧ (a < m.next ∨ m1.next + 1 ≤ a) ∧ (a = f.addr ∨ m.next ≤ a) := by
    intro ty a h
    rcases hfd with ⟨h1, -⟩ | ⟨-, a', h2, ⟨h3, h4, h5⟩ | ⟨h3, h4, h5⟩⟩
    · rw [h1] at h; simp at h
    · rw [h5] at h
      simp only [Elem.stored.injEq] at h
      obtain ⟨rfl, rfl⟩ := h
      exact ⟨rfl, h2, .inl (by omega), .inl h4⟩
    · rw [h5] at h
      simp only [Elem.stored.injEq] at h
      obtain ⟨rfl, rfl⟩ := h
      exact ⟨rfl, h2, .inr (by omega), .inr (by omega)⟩
  have hfv : ∀ ty a, fel = .stored ty a → ty.v = f.v := by
    intro ty a h
    rcases hfd with ⟨h1, -⟩ | ⟨-, a', h2, ⟨h3, h4, h5⟩ | ⟨h3, h4, h5⟩⟩
    · rw [h1] at h; simp at h
    · rw [h5] at h
      simp only [Elem.stored.injEq] at h
      rw [← h.1]
    · rw [h5] at h
      simp only [Elem.stored.injEq] at h
      rw [← h.1]
  have hfst : fel.hasState = !Λ.isEmpty f.base := by
    rcases hfd with ⟨h1, h2⟩ | ⟨h0, a', h2, ⟨h3, h4, h5⟩ | ⟨h3, h4, h5⟩⟩ <;> simp_all [Elem.hasState]
  have hmfget : ∀ a, m.next ≤ a → a < m1.next → mf.get a = m1.get a := by
    intro a h1 h2
    rw [gf.frame a (by omega) (by rintro ⟨h, -⟩; omega), ga.frame a h2 (by simp)]
  cases hb : Λ.isEmpty tb
  · -- the tuple has state: it is moved
    have ht : compressedTupleElement Λ ⟨tb, false, false, .xv, m1.next⟩ mf =
        (.stored ⟨tb, false, false, .none⟩ mf.next, Λ.initFrom ⟨tb, false, false, .xv, m1.next⟩ mf) := by
      simp [compressedTupleElement, Lang.emptyTy, Expr.type, Ty.removeCvref, Ty.removeReference, Ty.removeCv, hb,
        fwdCapture, deduceFwd]
    obtain ⟨gt, nt, -⟩ := initFrom_grows Λ ⟨tb, false, false, .xv, m1.next⟩ mf (by simp only; omega)
    obtain ⟨gi, pi, oi, wi⟩ := initElems_spec Λ false .xv els (Λ.initFrom ⟨tb, false, false, .xv, m1.next⟩ mf)
      (fun el hel a ha => by have := hown el hel a ha; omega)
      (c6.imp fun h a b ha hb' => by have := h a b ha hb'; omega)
    have ni := gi.next
    have hinit : initTuple Λ false .xv els (Λ.initFrom ⟨tb, false, false, .xv, m1.next⟩ mf) =
        some (initElems Λ false .xv els (Λ.initFrom ⟨tb, false, false, .xv, m1.next⟩ mf)) := by
      rcases els with _ | ⟨x, _ | ⟨y, els⟩⟩ <;> rfl
    have hbind : bindTuple Λ dir f ⟨tb, false, false, .xv, m1.next⟩ els (m1.alloc (Λ.default tb)) =
        some (⟨dir, fel, .stored ⟨tb, false, false, .none⟩ mf.next,
          (initElems Λ false .xv els (Λ.initFrom ⟨tb, false, false, .xv, m1.next⟩ mf)).1⟩,
          (initElems Λ false .xv els (Λ.initFrom ⟨tb, false, false, .xv, m1.next⟩ mf)).2) := by
      simp only [bindTuple, hF, ht, hinit]
    rw [hbind]
    generalize initElems Λ false .xv els (Λ.initFrom ⟨tb, false, false, .xv, m1.next⟩ mf) = I at gi pi oi wi ni
    obtain ⟨els2, m2⟩ := I
    simp only at gi pi oi wi ni ⊢
    have hel2 : ∀ (i : Nat) (el : Elem B), els2[i]? = some el → ∃ e, es[i]? = some e ∧
        ((Λ.isEmpty e.base = true ∧ el = .empty e.base) ∨ (Λ.isEmpty e.base = false ∧
          ∃ a, el = .stored ⟨e.base, false, false, .none⟩ a ∧ mf.next < a ∧ a < m2.next ∧ m2.get a = m.get e.addr)) := by
      intro i el hi
      have hil : i < els.length := by
        have := (List.getElem?_eq_some_iff.1 hi).1
        have := pi.1
        omega
      obtain ⟨e, he, hd⟩ := hels' i els[i] (by simp [hil])
      obtain ⟨el', h1, h2⟩ := pi.2 i els[i] (by simp [hil])
      rw [hi] at h1
      simp only [Option.some.injEq] at h1
      subst h1
      refine ⟨e, he, ?_⟩
      rcases hd with ⟨h3, h4⟩ | ⟨h3, a, h4, h5, h6, h7⟩
      · rw [h4] at h2
        exact .inl ⟨h3, h2⟩
      · rw [h4] at h2
        simp only [Reinit, reduceCtorEq, if_false] at h2
        obtain ⟨a', q1, q2, q3, q4⟩ := h2
        refine .inr ⟨h3, a', q1, by omega, q3, ?_⟩
        rw [q4, gt.frame a (by omega) (by rintro ⟨h, -⟩; simp only at h; omega), hmfget a h5 h6, h7]
    refine ⟨_, _, rfl, rfl, ?_, ?_, ?_, ?_, rfl, ?_, ?_, ?_, ?_, ?_, ?_, ?_, ?_, ?_, ?_, ?_, ?_⟩
    · simp only; rw [pi.1]; omega
    · refine ⟨?_, ?_, ?_⟩
      · rcases fel with x | ⟨ty, a⟩ <;> simp [Elem.constOk]
      · simp [Elem.constOk]
      · intro el _
        rcases el with x | ⟨ty, a⟩ <;> simp [Elem.constOk, Bound.tupleConst]
    · refine separate_of_owned _ m2.next (mf.next + 1) ?_ wi ?_ ?_
      · intro i ty a hi
        obtain ⟨e, -, ⟨-, h⟩ | ⟨-, a', h, -⟩⟩ := hel2 i _ hi
        · simp at h
        · simp only [Elem.stored.injEq] at h
          rw [h.1]; simp
      · intro el hel a ha
        have := oi el hel a ha
        exact ⟨by omega, this.2⟩
      · intro ty a hfel
        obtain ⟨-, h1, -⟩ := hfobj ty a hfel
        refine ⟨by omega, ?_⟩
        intro i ty' a' hi
        obtain ⟨e, -, ⟨-, h⟩ | ⟨-, a'', h, h', -⟩⟩ := hel2 i _ hi
        · simp at h
        · simp only [Elem.stored.injEq] at h
          omega
    · intro x hx; simp at hx
    · intro ty a hfel
      exact (hfobj ty a hfel).1
    · intro i ty a hi
      obtain ⟨e, -, ⟨-, h⟩ | ⟨-, a'', h, -⟩⟩ := hel2 i _ hi
      · simp at h
      · simp only [Elem.stored.injEq] at h
        rw [h.1]
    · rcases hx : fel with x | ⟨ty, a⟩
      · rw [hx] at hfh; exact hfh
      · rw [hx] at hfh
        obtain ⟨-, h1, h2, -⟩ := hfobj ty a hx
        simp only [Elem.holds] at hfh ⊢
        rw [← hfh, gi.frame a (by omega), gt.frame a h1]
        · rintro ⟨h, -⟩; simp only at h; omega
        · rintro ⟨el, hel, ha⟩
          have := hown el hel a ha
          omega
    · refine HoldAll.of_getElem (by rw [pi.1]; omega) ?_
      intro i el e hi he
      obtain ⟨e', he', hd⟩ := hel2 i el hi
      rw [he] at he'
      simp only [Option.some.injEq] at he'
      subst he'
      rcases hd with ⟨h1, rfl⟩ | ⟨-, a, rfl, -, -, h⟩
      · exact hE e (List.mem_of_getElem? he) h1
      · exact h
    · rw [gi.world, gt.world, hfw, ga.world, cw]
    · omega
    · intro ty a hfel
      exact (hfobj ty a hfel).2.2.2
    · intro i ty a hi
      obtain ⟨e, -, ⟨-, h⟩ | ⟨-, a'', h, h', -⟩⟩ := hel2 i _ hi
      · simp at h
      · simp only [Elem.stored.injEq] at h
        omega
    · exact hfst
    · refine map_hasState (by rw [pi.1]; omega) ?_
      intro i el e hi he
      obtain ⟨e', he', hd⟩ := hel2 i el hi
      rw [he] at he'
      simp only [Option.some.injEq] at he'
      subst he'
      rcases hd with ⟨h1, rfl⟩ | ⟨h1, a, rfl, -⟩ <;> simp [Elem.hasState, h1]
    · intro hv c
      refine ⟨?_, ?_, ?_⟩
      · rcases hx : fel with x | ⟨ty, a⟩
        · trivial
        · exact fun _ => by rw [hfv ty a hx, hv]
      · simp [Elem.constOk]
      · intro el hel
        obtain ⟨i, hi⟩ := List.mem_iff_getElem?.1 hel
        obtain ⟨e, -, ⟨-, rfl⟩ | ⟨-, a'', rfl, -⟩⟩ := hel2 i _ hi <;> simp [Elem.constOk]
    · intro i el hi
      obtain ⟨e, he, ⟨-, h⟩ | ⟨-, a'', h, -⟩⟩ := hel2 i _ hi
      · exact ⟨e, he, .inl h⟩
      · exact ⟨e, he, .inr ⟨a'', h⟩⟩
  · -- the tuple is empty
    have ht : compressedTupleElement Λ ⟨tb, false, false, .xv, m1.next⟩ mf = (.empty tb, mf) := by
      simp [compressedTupleElement, Lang.emptyTy, Expr.type, Ty.removeCvref, Ty.removeReference, Ty.removeCv, hb]
    have hbind : bindTuple Λ dir f ⟨tb, false, false, .xv, m1.next⟩ els (m1.alloc (Λ.default tb)) =
        some (⟨dir, fel, .empty tb, els⟩, mf) := by
      simp only [bindTuple, hF, ht]
    rw [hbind]
    rw [hb] at htb
    have hall : ∀ e ∈ es, Λ.isEmpty e.base = true := by
      have := htb.symm
      rw [List.all_eq_true] at this
      exact this
    have hemp : ∀ (i : Nat) (el : Elem B), els[i]? = some el → ∃ e, es[i]? = some e ∧ el = .empty e.base := by
      intro i el hi
      obtain ⟨e, he, ⟨-, h⟩ | ⟨h, -⟩⟩ := hels' i el hi
      · exact ⟨e, he, h⟩
      · rw [hall e (List.mem_of_getElem? he)] at h; simp at h
    have hno : ∀ (i : Nat) ty a, els[i]? = some (.stored ty a) → False := by
      intro i ty a hi
      obtain ⟨e, -, h⟩ := hemp i _ hi
      simp at h
    refine ⟨_, _, rfl, rfl, ?_, ?_, ?_, ?_, rfl, ?_, ?_, ?_, ?_, ?_, ?_, ?_, ?_, ?_, ?_, ?_, ?_⟩
    · simp only; omega
    · refine ⟨?_, ?_, ?_⟩
      · rcases fel with x | ⟨ty, a⟩ <;> simp [Elem.constOk]
      · simp [Elem.constOk]
      · intro el _
        rcases el with x | ⟨ty, a⟩ <;> simp [Elem.constOk, Bound.tupleConst]
    · refine separate_of_owned _ mf.next 0 (fun i ty a hi => (hno i ty a hi).elim) c6 ?_ ?_
      · intro el hel a ha
        have := hown el hel a ha
        omega
      · intro ty a hfel
        exact ⟨(hfobj ty a hfel).2.1, fun i ty' a' hi => (hno i ty' a' hi).elim⟩
    · intro x _ el hel
      obtain ⟨i, hi⟩ := List.mem_iff_getElem?.1 hel
      obtain ⟨e, -, h⟩ := hemp i el hi
      exact ⟨_, h⟩
    · intro ty a hfel
      exact (hfobj ty a hfel).1
    · intro i ty a hi
      exact (hno i ty a hi).elim
    · exact hfh
    · refine HoldAll.of_getElem c2.symm ?_
      intro i el e hi he
      obtain ⟨e', he', h⟩ := hemp i el hi
      rw [he] at he'
      simp only [Option.some.injEq] at he'
      subst he'
      rw [h]
      exact hE e (List.mem_of_getElem? he) (hall e (List.mem_of_getElem? he))
    · rw [hfw, ga.world, cw]
    · omega
    · intro ty a hfel
      exact (hfobj ty a hfel).2.2.2
    · intro i ty a hi
      exact (hno i ty a hi).elim
    · exact hfst
    · refine map_hasState c2 ?_
      intro i el e hi he
      obtain ⟨e', he', h⟩ := hemp i el hi
      rw [he] at he'
      simp only [Option.some.injEq] at he'
      subst he'
      rw [h]
      simp [Elem.hasState, hall e (List.mem_of_getElem? he)]
    · intro hv c
      refine ⟨?_, trivial, ?_⟩
      · rcases hx : fel with x | ⟨ty, a⟩
        · trivial
        · exact fun _ => by rw [hfv ty a hx, hv]
      · intro el hel
        obtain ⟨i, hi⟩ := List.mem_iff_getElem?.1 hel
        obtain ⟨e, -, rfl⟩ := hemp i _ hi
        trivial
    · intro i el hi
      obtain ⟨e, he, h⟩ := hemp i _ hi
      exact ⟨e, he, .inl h⟩

/-- The part used most. -/
theorem makeBound_spec [DecidableEq B] (Λ : Lang B V) (isCT : B → Bool) (tb : B) (dir : Dir) (es : List (Expr B)) (f : Expr B)
    (m : Mem V L) (hlt : ∀ e ∈ es, e.addr < m.next) (hf : f.addr < m.next)
    (hE : ∀ e ∈ es, Λ.isEmpty e.base = true → m.get e.addr = Λ.emptyVal e.base)
    (hEf : Λ.isEmpty f.base = true → m.get f.addr = Λ.emptyVal f.base)
    (hlone : ∀ e, es = [e] → isCT e.base = false)
    (htb : Λ.isEmpty tb = es.all fun e => Λ.isEmpty e.base) :
    ∃ b m', makeBound Λ isCT tb dir es f m = some (b, m') ∧ b.dir = dir ∧ b.els.length = es.length ∧
      b.ConstOk false ∧ b.Separate m'.next ∧ b.WF ∧
      b.tupleConst false = false ∧ (∀ ty a, b.f = .stored ty a → ty.c = f.c) ∧ (∀ (i : Nat) ty a, b.els[i]? = some (.stored ty a) → ty.c = false) ∧
      b.f.holds Λ m' (m.get f.addr) ∧ HoldAll Λ m' b.els (es.map fun e => m.get e.addr) ∧ m'.world = m.world ∧
      m.next ≤ m'.next ∧ (∀ ty a, b.f = .stored ty a → a = f.addr ∨ m.next ≤ a) ∧
      (∀ (i : Nat) ty a, b.els[i]? = some (.stored ty a) → m.next ≤ a) ∧ b.f.hasState = !Λ.isEmpty f.base ∧
      b.els.map Elem.hasState = es.map fun e => !Λ.isEmpty e.base := by
  obtain ⟨b, m', h1, h2, h3, h4, h5, h6, h7, h8, h9, h10, h11, h12, h13, h14, h15, h16, h17, -, -⟩ :=
    makeBound_spec_all Λ isCT tb dir es f m hlt hf hE hEf hlone htb
  exact ⟨b, m', h1, h2, h3, h4, h5, h6, h7, h8, h9, h10, h11, h12, h13, h14, h15, h16, h17⟩

end Pigro.Cxx
