import Verif.Proofs.CompressedTuple
/-!
# Lemmas about the construction of compressed tuples
-/
namespace Pigro.Cxx
variable {B V L : Type}

theorem ofRef_declTypeFwd (e : Expr B) : Expr.ofRef (declTypeFwd e) e.addr = e := by
  rcases e with ⟨b, c, v, cat, addr⟩
  cases cat <;> rfl

/-- The items `enumerate_pack` makes. -/
def itemsFrom (n : Nat) : List (Expr B) → List (Item B)
  | [] => []
  | e :: es => ⟨n, declTypeFwd e, e⟩ :: itemsFrom (n + 1) es

theorem range_items (es : List (Expr B)) (k : Nat) :
    ((List.range es.length).flatMap fun i =>
      (((es.map fun e => (declTypeFwd e, e))[i]?).map fun r =>
        (⟨k + i, r.1, Expr.ofRef r.1 r.2.addr⟩ : Item B)).toList) = itemsFrom k es := by
  induction es generalizing k with
  | nil => rfl
  | cons e es ih =>
    rw [List.length_cons, List.range_succ_eq_map, List.flatMap_cons, List.flatMap_map, itemsFrom, ← ih (k + 1)]
    simp only [List.map_cons, List.getElem?_cons_zero, Option.map_some, Option.toList_some, Nat.add_zero,
      ofRef_declTypeFwd, List.singleton_append, List.getElem?_cons_succ, Nat.succ_eq_add_one]
    congr 1
    simp only [Nat.add_assoc, Nat.add_comm 1]

theorem enumeratePack_eq {X : Type} (f : List (Item B) → X) (es : List (Expr B)) :
    enumeratePack f es = f (itemsFrom 0 es) := by
  have := range_items es 0
  simp only [Nat.zero_add] at this
  simp only [enumeratePack, this]

/-- The elements, one after the other. -/
def mkElems (Λ : Lang B V) : List (Expr B) → Mem V L → List (Elem B) × Mem V L
  | [], m => ([], m)
  | e :: es, m =>
    let x := compressedTupleElement Λ e m
    let r := mkElems Λ es x.2
    (x.1 :: r.1, r.2)

theorem makeBase_eq (Λ : Lang B V) (es : List (Expr B)) (m : Mem V L) :
    makeBase Λ es m = mkElems Λ es m := by
  have h : ∀ (es : List (Expr B)) (n : Nat) (acc : List (Elem B)) (m : Mem V L),
      (itemsFrom n es).foldl (fun (r : List (Elem B) × Mem V L) item =>
        ((r.1 ++ [(compressedTupleElement Λ item.value r.2).1]),
          (compressedTupleElement Λ item.value r.2).2)) (acc, m) =
      (acc ++ (mkElems Λ es m).1, (mkElems Λ es m).2) := by
    intro es
    induction es with
    | nil => intro n acc m; simp [itemsFrom, mkElems]
    | cons e es ih =>
      intro n acc m
      simp only [itemsFrom, List.foldl_cons, ih, mkElems, List.append_assoc, List.singleton_append]
  rw [makeBase, enumeratePack_eq]
  simpa using h es 0 [] m

/-- What the element made from the expression `e` in memory `m` is, in the memory `m'` afterwards. -/
def ElemFor (Λ : Lang B V) (m m' : Mem V L) (e : Expr B) (el : Elem B) : Prop :=
  if Λ.isEmpty e.base then el = .empty e.base
  else match e.cat with
    | .lv => el = .stored ⟨e.base, e.c, e.v, .lref⟩ e.addr
    | .xv => ∃ a, el = .stored ⟨e.base, e.c, e.v, .none⟩ a ∧ m.next ≤ a ∧ a < m'.next ∧
        m'.get a = m.get e.addr

/-- The address of the object an element owns. -/
def Elem.owned : Elem B → Option Nat
  | .empty _ => none
  | .stored ty a => if ty.ref = .lref then none else some a

/-- One element. -/
theorem element_spec (Λ : Lang B V) (e : Expr B) (m : Mem V L) (hlt : e.addr < m.next) :
    let r := compressedTupleElement Λ e m
    m.next ≤ r.2.next ∧
    (∀ a < m.next, (e.cat = .xv → e.addr ≠ a) → r.2.get a = m.get a) ∧
    ElemFor Λ m r.2 e r.1 ∧ (∀ a, r.1.owned = some a → m.next ≤ a ∧ a < r.2.next) ∧
    (e.cat = .xv → e.c = false → Λ.isEmpty e.base = false → r.2.get e.addr = Λ.moved (m.get e.addr)) := by
  intro r
  rcases e with ⟨b, c, v, cat, addr⟩
  simp only at hlt
  have hne : m.next ≠ addr := by omega
  by_cases he : Λ.isEmpty b = true
  · have hr : r = (.empty b, m) := by
      simp [r, compressedTupleElement, Lang.emptyTy, Expr.type, Ty.removeCvref, Ty.removeReference, Ty.removeCv, he]
    rw [hr]
    exact ⟨Nat.le_refl _, fun _ _ _ => rfl, by simp [ElemFor, he], by simp [Elem.owned], by simp [he]⟩
  · have he' : Λ.isEmpty b = false := by simpa using he
    cases cat with
    | lv =>
      have hr : r = (.stored ⟨b, c, v, .lref⟩ addr, m) := by
        simp [r, compressedTupleElement, Lang.emptyTy, Expr.type, Ty.removeCvref, Ty.removeReference, Ty.removeCv, he',
          fwdCapture, deduceFwd]
      rw [hr]
      exact ⟨Nat.le_refl _, fun _ _ _ => rfl, by simp [ElemFor, he'], by simp [Elem.owned], by simp⟩
    | xv =>
      have hr : r = (.stored ⟨b, c, v, .none⟩ m.next, Λ.initFrom ⟨b, c, v, .xv, addr⟩ m) := by
        simp [r, compressedTupleElement, Lang.emptyTy, Expr.type, Ty.removeCvref, Ty.removeReference, Ty.removeCv, he',
          fwdCapture, deduceFwd]
      rw [hr]
      have hnext : (Λ.initFrom ⟨b, c, v, .xv, addr⟩ m).next = m.next + 1 := by
        cases c <;> rfl
      refine ⟨by simp [hnext], ?_, ?_, ?_, ?_⟩
      · intro a ha hxa
        have h1 : addr ≠ a := hxa rfl
        have h2 : a ≠ m.next := by omega
        cases c <;> simp [Lang.initFrom, Mem.alloc, Mem.write, h1.symm, h2]
      · simp only [ElemFor, he', Bool.false_eq_true, if_false]
        refine ⟨m.next, rfl, Nat.le_refl _, by simp [hnext], ?_⟩
        cases c <;> simp [Lang.initFrom, Mem.alloc, Mem.write, hne]
      · intro a ha
        simp [Elem.owned] at ha
        subst ha
        simp [hnext]
      · intro _ hc _
        simp only at hc
        subst hc
        simp [Lang.initFrom, Mem.write]

theorem mkElems_spec (Λ : Lang B V) (es : List (Expr B)) : ∀ m : Mem V L,
    (∀ e ∈ es, e.addr < m.next) →
    es.Pairwise (fun e e' => (e.cat = .xv ∨ e'.cat = .xv) → e.addr ≠ e'.addr) →
    let r := mkElems Λ es m
    m.next ≤ r.2.next ∧ r.1.length = es.length ∧
    (∀ a < m.next, (∀ e ∈ es, e.cat = .xv → e.addr ≠ a) → r.2.get a = m.get a) ∧
    (∀ (i : Nat) (e : Expr B), es[i]? = some e → ∃ el, r.1[i]? = some el ∧ ElemFor Λ m r.2 e el) ∧
    (∀ el ∈ r.1, ∀ a, el.owned = some a → m.next ≤ a ∧ a < r.2.next) ∧
    r.1.Pairwise (fun x y => ∀ a b, x.owned = some a → y.owned = some b → a < b) ∧
    (∀ e ∈ es, e.cat = .xv → e.c = false → Λ.isEmpty e.base = false →
      r.2.get e.addr = Λ.moved (m.get e.addr)) := by
  induction es with
  | nil =>
    intro m _ _
    exact ⟨Nat.le_refl _, rfl, fun _ _ _ => rfl, by simp, by simp [mkElems], .nil, by simp⟩
  | cons e es ih =>
    intro m hlt hpw
    have hlt' : ∀ e' ∈ es, e'.addr < m.next := fun e' h => hlt e' (by simp [h])
    rw [List.pairwise_cons] at hpw
    obtain ⟨g1, g2, g3, g4, g5⟩ := element_spec Λ e m (hlt e (by simp))
    obtain ⟨i1, i2, i3, i4, i5, i6, i7⟩ := ih (compressedTupleElement Λ e m).2
      (fun e' h => Nat.lt_of_lt_of_le (hlt' e' h) g1) hpw.2
    simp only [mkElems]
    generalize compressedTupleElement Λ e m = x at *
    generalize mkElems Λ es x.2 = r at *
    refine ⟨by omega, by simp [i2], ?_, ?_, ?_, ?_, ?_⟩
    · intro a ha hxa
      rw [i3 a (by omega) fun e' h => hxa e' (by simp [h])]
      exact g2 a ha (hxa e (by simp))
    · intro i e' hi
      cases i with
      | zero =>
        simp only [List.getElem?_cons_zero, Option.some.injEq] at hi
        subst hi
        refine ⟨x.1, by simp, ?_⟩
        simp only [ElemFor] at g3 ⊢
        split
        · rename_i he; simpa [he] using g3
        · rename_i he
          simp only [he] at g3
          cases hc : e.cat
          · simpa [hc] using g3
          · simp only [hc] at g3 ⊢
            obtain ⟨a, h1, h2, h3, h4⟩ := g3
            refine ⟨a, h1, h2, by omega, ?_⟩
            rw [i3 a h3 ?_, h4]
            intro e' h' _ hcontra
            have := hlt' e' h'
            omega
      | succ i =>
        simp only [List.getElem?_cons_succ] at hi
        obtain ⟨el, h1, h2⟩ := i4 i e' hi
        have hmem : e' ∈ es := List.mem_of_getElem? hi
        refine ⟨el, by simpa using h1, ?_⟩
        simp only [ElemFor] at h2 ⊢
        split
        · rename_i he; simpa [he] using h2
        · rename_i he
          simp only [he] at h2
          cases hc : e'.cat
          · simpa [hc] using h2
          · simp only [hc] at h2 ⊢
            obtain ⟨a, k1, k2, k3, k4⟩ := h2
            refine ⟨a, k1, by omega, k3, ?_⟩
            rw [k4]
            exact g2 _ (hlt' e' hmem) fun _ => hpw.1 e' hmem (.inr hc)
    · intro el hel a ha
      rcases List.mem_cons.1 hel with rfl | hel
      · have := g4 a ha; omega
      · have := i5 el hel a ha; omega
    · refine .cons ?_ i6
      intro y hy a b ha hb
      have h1 := g4 a ha
      have h2 := i5 y hy b hb
      omega
    · intro e' he' hx hc hE
      rcases List.mem_cons.1 he' with rfl | he'
      · have ha := hlt e' (by simp)
        rw [i3 _ (by omega) fun e'' h'' hx'' => (hpw.1 e'' h'' (.inr hx'')).symm]
        exact g5 hx hc hE
      · rw [i7 e' he' hx hc hE, g2 _ (hlt' e' he') fun _ => hpw.1 e' he' (.inr hx)]

/-- What `static_cast<t>(e)` is. -/
def CastFor (m m' : Mem V L) (t : Ty B) (e e' : Expr B) : Prop :=
  e.base = t.base ∧ match t.ref with
  | .none => ∃ a, e' = ⟨t.base, t.c, t.v, .xv, a⟩ ∧ m.next ≤ a ∧ a < m'.next ∧ m'.get a = m.get e.addr
  | _ => (e.c = true → t.c = true) ∧ (e.v = true → t.v = true) ∧ e' = Expr.ofRef t e.addr

theorem castArgs_spec [DecidableEq B] (Λ : Lang B V) (ts : List (Ty B)) : ∀ (es : List (Expr B)) (m : Mem V L)
    (es' : List (Expr B)) (m' : Mem V L), (∀ e ∈ es, e.addr < m.next) → castArgs Λ ts es m = some (es', m') →
    m.next ≤ m'.next ∧ es.length = ts.length ∧ es'.length = ts.length ∧
    (∀ a < m.next, m'.get a = m.get a) ∧
    (∀ (i : Nat) (t : Ty B) (e : Expr B), ts[i]? = some t → es[i]? = some e →
      ∃ e', es'[i]? = some e' ∧ CastFor m m' t e e') ∧
    (∀ e' ∈ es', e'.addr < m'.next) ∧
    (∀ (i j : Nat) (t : Ty B) (e1 e2 : Expr B), i ≠ j → ts[i]? = some t → t.ref = .none → es'[i]? = some e1 →
      es'[j]? = some e2 → e1.addr ≠ e2.addr) := by
  induction ts with
  | nil =>
    intro es m es' m' _ h
    cases es with
    | nil =>
      simp only [castArgs, Option.some.injEq, Prod.mk.injEq] at h
      obtain ⟨rfl, rfl⟩ := h
      exact ⟨Nat.le_refl _, rfl, rfl, fun _ _ => rfl, by simp, by simp, by simp⟩
    | cons e es => simp [castArgs] at h
  | cons t ts ih =>
    intro es m es' m' hlt h
    cases es with
    | nil => simp [castArgs] at h
    | cons e es =>
      simp only [castArgs] at h
      rcases hc : castArg Λ t e m with _ | ⟨x, m1⟩
      · simp [hc] at h
      rcases hcs : castArgs Λ ts es m1 with _ | ⟨xs, m2⟩
      · simp [hc, hcs] at h
      simp only [hc, hcs, Option.some.injEq, Prod.mk.injEq] at h
      obtain ⟨rfl, rfl⟩ := h
      have hlt' : ∀ e' ∈ es, e'.addr < m.next := fun e' h => hlt e' (by simp [h])
      have head : m.next ≤ m1.next ∧ (∀ a < m.next, m1.get a = m.get a) ∧ CastFor m m1 t e x ∧
          x.addr < m1.next ∧ (t.ref = .none → m.next ≤ x.addr) := by
        have he := hlt e (by simp)
        rcases t with ⟨b, c, v, rf⟩
        cases rf
        · simp only [castArg] at hc
          split at hc
          · rename_i hb
            simp only [Option.some.injEq, Prod.mk.injEq] at hc
            obtain ⟨rfl, rfl⟩ := hc
            refine ⟨by simp [Lang.initFrom, Expr.named, Mem.alloc], ?_, ⟨hb, m.next, rfl, Nat.le_refl _, ?_, ?_⟩, ?_, ?_⟩
            · intro a ha
              have : a ≠ m.next := by omega
              simp [Lang.initFrom, Expr.named, Mem.alloc, this]
            · simp [Lang.initFrom, Expr.named, Mem.alloc]
            · simp [Lang.initFrom, Expr.named, Mem.alloc]
            · simp [Lang.initFrom, Expr.named, Mem.alloc]
            · intro _; exact Nat.le_refl _
          · simp at hc
        all_goals
          simp only [castArg] at hc
          split at hc
          · rename_i hb
            simp only [Option.some.injEq, Prod.mk.injEq] at hc
            obtain ⟨rfl, rfl⟩ := hc
            exact ⟨Nat.le_refl _, fun _ _ => rfl, ⟨hb.1, hb.2.1, hb.2.2, rfl⟩, he, by simp⟩
          · simp at hc
      obtain ⟨k1, k2, k3, k4, k5⟩ := head
      obtain ⟨i1, i2, i3, i4, i5, i6, i7⟩ := ih es m1 xs m2
        (fun e' h => Nat.lt_of_lt_of_le (hlt' e' h) k1) hcs
      have lift : ∀ (t' : Ty B) (e e' : Expr B), CastFor m m1 t' e e' → CastFor m m2 t' e e' := by
        intro t' e e' ⟨hb, hh⟩
        refine ⟨hb, ?_⟩
        cases hr : t'.ref <;> simp only [hr] at hh ⊢
        · obtain ⟨a, l1, l2, l3, l4⟩ := hh
          exact ⟨a, l1, l2, by omega, by rw [i4 a l3, l4]⟩
        · exact hh
        · exact hh
      have lift' : ∀ (t' : Ty B) (e e' : Expr B), e.addr < m.next → CastFor m1 m2 t' e e' → CastFor m m2 t' e e' := by
        intro t' e e' hlte ⟨hb, hh⟩
        refine ⟨hb, ?_⟩
        cases hr : t'.ref <;> simp only [hr] at hh ⊢
        · obtain ⟨a, l1, l2, l3, l4⟩ := hh
          exact ⟨a, l1, by omega, l3, by rw [l4, k2 _ hlte]⟩
        · exact hh
        · exact hh
      -- addresses of later casts: below `m.next`, or at least `m1.next`
      have tailAddr : ∀ (j : Nat) (e2 : Expr B), xs[j]? = some e2 → e2.addr < m.next ∨ m1.next ≤ e2.addr := by
        intro j e2 hj
        have hjl : j < xs.length := (List.getElem?_eq_some_iff.1 hj).1
        have hjt : j < ts.length := by omega
        have hje : j < es.length := by omega
        obtain ⟨e', h1, h2⟩ := i5 j ts[j] es[j] (by simp [hjt]) (by simp [hje])
        rw [hj] at h1
        cases h1
        obtain ⟨_, hh⟩ := h2
        cases hr : ts[j].ref <;> simp only [hr] at hh
        · obtain ⟨a, l1, l2, -⟩ := hh
          right; rw [l1]; exact l2
        · left; rw [hh.2.2]; exact hlt' es[j] (List.getElem_mem hje)
        · left; rw [hh.2.2]; exact hlt' es[j] (List.getElem_mem hje)
      refine ⟨by omega, by simp [i2], by simp [i3], ?_, ?_, ?_, ?_⟩
      · intro a ha
        rw [i4 a (by omega), k2 a ha]
      · intro i t' e' ht he'
        cases i with
        | zero =>
          simp only [List.getElem?_cons_zero, Option.some.injEq] at ht he'
          subst ht he'
          exact ⟨x, by simp, lift _ _ _ k3⟩
        | succ i =>
          simp only [List.getElem?_cons_succ] at ht he'
          obtain ⟨y, h1, h2⟩ := i5 i t' e' ht he'
          exact ⟨y, by simpa using h1, lift' _ _ _ (hlt' e' (List.mem_of_getElem? he')) h2⟩
      · intro y hy
        rcases List.mem_cons.1 hy with rfl | hy
        · omega
        · exact i6 y hy
      · intro i j t' e1 e2 hij ht hn h1 h2
        cases i with
        | zero =>
          cases j with
          | zero => exact absurd rfl hij
          | succ j =>
            simp only [List.getElem?_cons_zero, Option.some.injEq, List.getElem?_cons_succ] at ht h1 h2
            subst ht h1
            have := k5 hn
            rcases tailAddr j e2 h2 with h | h <;> omega
        | succ i =>
          cases j with
          | zero =>
            simp only [List.getElem?_cons_zero, Option.some.injEq, List.getElem?_cons_succ] at ht h1 h2
            subst h2
            have hjl : i < es.length := by
              have := (List.getElem?_eq_some_iff.1 ht).1; omega
            obtain ⟨y, l1, l2⟩ := i5 i t' es[i] ht (by simp [hjl])
            rw [h1] at l1
            cases l1
            obtain ⟨_, hh⟩ := l2
            simp only [hn] at hh
            obtain ⟨a, n1, n2, -⟩ := hh
            rw [n1]
            simp only
            omega
          | succ j =>
            simp only [List.getElem?_cons_succ] at ht h1 h2
            exact i7 i j t' e1 e2 (by omega) ht hn h1 h2

/-- What element `i` of a constructed tuple is: of type `t`, initialised with `e`. -/
def BuiltFor (Λ : Lang B V) (m m' : Mem V L) (t : Ty B) (e : Expr B) (el : Elem B) : Prop :=
  e.base = t.base ∧
  if Λ.isEmpty t.base then el = .empty t.base
  else if t.ref = .lref then el = .stored t e.addr ∧ (e.c = true → t.c = true) ∧ (e.v = true → t.v = true)
  else ∃ a, el = .stored ⟨t.base, t.c, t.v, .none⟩ a ∧ m.next ≤ a ∧ a < m'.next ∧ m'.get a = m.get e.addr

/-- No object that an rvalue reference element is initialised with is also that of another reference element. -/
def SourcesApart (ts : List (Ty B)) (es : List (Expr B)) : Prop :=
  ∀ (i j : Nat) (t t' : Ty B) (e e' : Expr B), i ≠ j → ts[i]? = some t → ts[j]? = some t' → t.ref = .rref →
    t'.ref ≠ .none → es[i]? = some e → es[j]? = some e' → e.addr ≠ e'.addr

theorem construct_spec [DecidableEq B] (Λ : Lang B V) (ts : List (Ty B)) (es : List (Expr B)) (m m' : Mem V L)
    (els : List (Elem B)) (hlt : ∀ e ∈ es, e.addr < m.next) (hr : SourcesApart ts es)
    (h : construct Λ ts es m = some (els, m')) :
    es.length = ts.length ∧ els.length = ts.length ∧ m.next ≤ m'.next ∧
    (∀ a < m.next, (∀ (i : Nat) (t : Ty B) (e : Expr B), ts[i]? = some t → es[i]? = some e → t.ref = .rref →
      e.addr ≠ a) → m'.get a = m.get a) ∧
    (∀ (i : Nat) (t : Ty B) (e : Expr B), ts[i]? = some t → es[i]? = some e →
      ∃ el, els[i]? = some el ∧ BuiltFor Λ m m' t e el) ∧
    els.Pairwise (fun x y => ∀ a b, x.owned = some a → y.owned = some b → a < b) ∧
    (∀ (i : Nat) (t : Ty B) (e : Expr B), ts[i]? = some t → es[i]? = some e → t.ref = .rref → t.c = false →
      Λ.isEmpty t.base = false → m'.get e.addr = Λ.moved (m.get e.addr)) := by
  simp only [construct, Option.map_eq_some_iff] at h
  obtain ⟨⟨es', m1⟩, hc, hm⟩ := h
  obtain ⟨c1, c2, c3, c4, c5, c6, c7⟩ := castArgs_spec Λ ts es m es' m1 hlt hc
  -- where the casts come from
  have hfrom : ∀ (i : Nat) (e' : Expr B), es'[i]? = some e' → ∃ t e, ts[i]? = some t ∧ es[i]? = some e ∧
      ((t.ref = .none ∧ e'.cat = .xv ∧ m.next ≤ e'.addr) ∨ (t.ref = .lref ∧ e'.cat = .lv ∧ e'.addr = e.addr) ∨
       (t.ref = .rref ∧ e'.cat = .xv ∧ e'.addr = e.addr)) ∧ (∀ e'' ∈ es, e''.addr < m.next) := by
    intro i e' hi
    have hil : i < ts.length := by
      have := (List.getElem?_eq_some_iff.1 hi).1; omega
    have hie : i < es.length := by omega
    obtain ⟨y, l1, l2⟩ := c5 i ts[i] es[i] (by simp [hil]) (by simp [hie])
    rw [hi] at l1
    cases l1
    obtain ⟨_, hh⟩ := l2
    refine ⟨ts[i], es[i], by simp [hil], by simp [hie], ?_, hlt⟩
    cases hrf : ts[i].ref <;> simp only [hrf] at hh
    · obtain ⟨a, n1, n2, -⟩ := hh
      exact .inl ⟨rfl, by rw [n1], by rw [n1]; exact n2⟩
    · exact .inr (.inl ⟨rfl, by rw [hh.2.2]; simp [Expr.ofRef, hrf], by rw [hh.2.2]; rfl⟩)
    · exact .inr (.inr ⟨rfl, by rw [hh.2.2]; simp [Expr.ofRef, hrf], by rw [hh.2.2]; rfl⟩)
  have hapart : ∀ (i j : Nat) (x y : Expr B), i ≠ j → es'[i]? = some x → es'[j]? = some y → x.cat = .xv →
      x.addr ≠ y.addr := by
    intro i j x y hij hx hy hcat
    obtain ⟨t, e, ht, he, hcase, -⟩ := hfrom i x hx
    obtain ⟨t', e', ht', he', hcase', -⟩ := hfrom j y hy
    rcases hcase with ⟨h1, -, -⟩ | ⟨-, h2, -⟩ | ⟨h1, -, h3⟩
    · exact c7 i j t x y hij ht h1 hx hy
    · rw [h2] at hcat; simp at hcat
    · rcases hcase' with ⟨k1, -, -⟩ | ⟨k1, -, k3⟩ | ⟨k1, -, k3⟩
      · exact (c7 j i t' y x (by omega) ht' k1 hy hx).symm
      · rw [h3, k3]; exact hr i j t t' e e' hij ht ht' h1 (by simp [k1]) he he'
      · rw [h3, k3]; exact hr i j t t' e e' hij ht ht' h1 (by simp [k1]) he he'
  have hpw : es'.Pairwise (fun e e' => (e.cat = .xv ∨ e'.cat = .xv) → e.addr ≠ e'.addr) := by
    rw [List.pairwise_iff_getElem]
    intro i j hi hj hij hx
    rcases hx with hx | hx
    · exact hapart i j _ _ (by omega) (by simp [hi]) (by simp [hj]) hx
    · exact (hapart j i _ _ (by omega) (by simp [hj]) (by simp [hi]) hx).symm
  obtain ⟨d1, d2, d3, d4, d5, d6, d7⟩ := mkElems_spec Λ es' m1 c6 hpw
  rw [← makeBase_eq, hm] at d1 d2 d3 d4 d5 d6 d7
  simp only at d1 d2 d3 d4 d5 d6 d7
  refine ⟨c2, by omega, by omega, ?_, ?_, d6, ?_⟩
  · intro a ha hra
    rw [d3 a (by omega) ?_, c4 a ha]
    intro e' he' hx hcontra
    obtain ⟨i, hi, rfl⟩ := List.mem_iff_getElem.1 he'
    obtain ⟨t, e, ht, he, hcase, -⟩ := hfrom i es'[i] (by simp [hi])
    rcases hcase with ⟨-, -, h3⟩ | ⟨-, h2, -⟩ | ⟨h1, -, h3⟩
    · omega
    · rw [h2] at hx; simp at hx
    · exact hra i t e ht he h1 (by rw [← h3, hcontra])
  · intro i t e ht he
    obtain ⟨e', h1, hb, h2⟩ := c5 i t e ht he
    obtain ⟨el, h3, h4⟩ := d4 i e' h1
    refine ⟨el, h3, hb, ?_⟩
    have hmem : t ∈ ts := List.mem_of_getElem? ht
    have hlte : e.addr < m.next := hlt e (List.mem_of_getElem? he)
    rcases t with ⟨b, c, v, rf⟩
    cases rf with
    | none =>
      obtain ⟨a, n1, n2, n3, n4⟩ := h2
      subst n1
      simp only [ElemFor] at h4
      cases hE : Λ.isEmpty b
      · simp only [hE, Bool.false_eq_true, if_false] at h4
        obtain ⟨a', l1, l2, l3, l4⟩ := h4
        simp only [Bool.false_eq_true, if_false, reduceCtorEq]
        exact ⟨a', l1, by omega, l3, by rw [l4, n4]⟩
      · simpa [hE] using h4
    | lref =>
      obtain ⟨n1, n2, n3⟩ := h2
      subst n3
      simp only [ElemFor, Expr.ofRef] at h4
      cases hE : Λ.isEmpty b
      · simp only [hE, Bool.false_eq_true, if_false] at h4
        simp only [Bool.false_eq_true, if_false, if_true]
        exact ⟨h4, n1, n2⟩
      · simpa [hE] using h4
    | rref =>
      obtain ⟨n1, n2, n3⟩ := h2
      subst n3
      simp only [ElemFor, Expr.ofRef] at h4
      cases hE : Λ.isEmpty b
      · simp only [hE, Bool.false_eq_true, if_false] at h4
        obtain ⟨a', l1, l2, l3, l4⟩ := h4
        simp only [Bool.false_eq_true, if_false, reduceCtorEq]
        exact ⟨a', l1, by omega, l3, by rw [l4, c4 _ hlte]⟩
      · simpa [hE] using h4
  · intro i t e ht he hrf hcn hE
    obtain ⟨e', h1, hb, h2⟩ := c5 i t e ht he
    simp only [hrf] at h2
    obtain ⟨n1, n2, n3⟩ := h2
    have hlte : e.addr < m.next := hlt e (List.mem_of_getElem? he)
    have := d7 e' (List.mem_of_getElem? h1) (by rw [n3]; simp [Expr.ofRef, hrf]) (by rw [n3]; simpa [Expr.ofRef] using hcn)
      (by rw [n3]; simpa [Expr.ofRef] using hE)
    rw [n3] at this
    simp only [Expr.ofRef] at this
    rw [this, c4 _ hlte]

theorem construct_total [DecidableEq B] (Λ : Lang B V) (ts : List (Ty B)) : ∀ (es : List (Expr B)) (m : Mem V L),
    es.length = ts.length →
    (∀ (i : Nat) (t : Ty B) (e : Expr B), ts[i]? = some t → es[i]? = some e → e.base = t.base ∧
      (t.ref ≠ .none → (e.c = true → t.c = true) ∧ (e.v = true → t.v = true))) →
    (construct Λ ts es m).isSome := by
  have key : ∀ (ts : List (Ty B)) (es : List (Expr B)) (m : Mem V L), es.length = ts.length →
      (∀ (i : Nat) (t : Ty B) (e : Expr B), ts[i]? = some t → es[i]? = some e → e.base = t.base ∧
        (t.ref ≠ .none → (e.c = true → t.c = true) ∧ (e.v = true → t.v = true))) →
      (castArgs Λ ts es m).isSome := by
    intro ts
    induction ts with
    | nil =>
      intro es m hl _
      cases es
      · rfl
      · simp at hl
    | cons t ts ih =>
      intro es m hl h
      cases es with
      | nil => simp at hl
      | cons e es =>
        obtain ⟨h1, h2⟩ := h 0 t e rfl rfl
        have : ∃ x, castArg Λ t e m = some x := by
          rcases t with ⟨b, c, v, rf⟩
          cases rf
          · exact ⟨_, by simp only [castArg]; rw [if_pos h1]⟩
          all_goals
            obtain ⟨k1, k2⟩ := h2 (by simp)
            exact ⟨_, by simp only [castArg]; rw [if_pos ⟨h1, k1, k2⟩]⟩
        obtain ⟨⟨x, m1⟩, hx⟩ := this
        have := ih es m1 (by simpa using hl) fun i t e ht he => h (i + 1) t e (by simpa using ht) (by simpa using he)
        obtain ⟨⟨xs, m2⟩, hxs⟩ := Option.isSome_iff_exists.1 this
        simp [castArgs, hx, hxs]
  intro es m hl h
  simp only [construct, Option.isSome_map]
  exact key ts es m hl h

end Pigro.Cxx
