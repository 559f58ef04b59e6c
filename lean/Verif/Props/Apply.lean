import Verif.Proofs.Bind
import Verif.Props.CompressedTuple
/-!
# C43-C45: apply.h, to_tuple.h, pack_algorithms.h
-/
namespace Pigro.Cxx
variable {B V L R : Type} [DecidableEq B]

/-! ### C43 -/

/-- **C43** for a `compressed_tuple` used as a (const) lvalue or xvalue: the function is invoked once, with one argument per element, in order;
for an element that is stored the argument denotes that object, for one of empty type a temporary; nothing else happens. (Excluded:
volatile elements of const tuples, which `get` cannot access.) -/
theorem C43_apply (Λ : Lang B V) (els : List (Elem B)) (c : Bool) (cat : Cat) (m : Mem V L) (hok : ∀ el ∈ els, el.constOk c) :
    ∃ es m', Grows (fun _ => False) m m' ∧ Pairs (SeenElem Λ m m' c cat) els es ∧
      ((∀ el ∈ els, el.IsStored) → m' = m) ∧
      ∀ (R : Type) (f : List (Expr B) → Mem V L → R × Mem V L),
        apply Λ f (.compressed els) c cat m = some ((f es m').1, (f es m').2.killRange m.next m'.next) := by
  obtain ⟨es, m', h1, h2, h3, h4⟩ := getAll_spec Λ els c cat m hok
  refine ⟨es, m', h3, ⟨h2, h4⟩, fun hs => getAll_stored Λ els hs c cat _ _ _ _ h1, ?_⟩
  intro R f
  simp only [apply, Tup.size, applyImpl, h1]

/-- **C43**, in terms of `get`: the arguments are `get<0>(t), ..., get<n-1>(t)`, prvalues being materialised as temporaries. -/
theorem C43_apply_get (Λ : Lang B V) (f : List (Expr B) → Mem V L → R × Mem V L) (t : Tup B) (c : Bool) (cat : Cat) (m : Mem V L)
    (r : R) (m2 : Mem V L) (h : apply Λ f t c cat m = some (r, m2)) :
    ∃ es m1, r = (f es m1).1 ∧ m2 = (f es m1).2.killRange m.next m1.next ∧ es.length = t.size ∧ Grows (fun _ => False) m m1 ∧
      ∀ i < t.size, ∃ e, es[i]? = some e ∧
        (t.get c cat i = .glvalue e ∨
         ∃ b, t.get c cat i = .prvalue b ∧ e.base = b ∧ e.cat = .xv ∧ m.next ≤ e.addr ∧ e.addr < m1.next ∧ m1.get e.addr = Λ.emptyVal b) := by
  have key : ∀ (n k : Nat) (m : Mem V L) (es : List (Expr B)) (m1 : Mem V L), getAll Λ t c cat (List.range' k n) m = some (es, m1) →
      es.length = n ∧ Grows (fun _ => False) m m1 ∧ ∀ i < n, ∃ e, es[i]? = some e ∧
        (t.get c cat (k + i) = .glvalue e ∨
         ∃ b, t.get c cat (k + i) = .prvalue b ∧ e.base = b ∧ e.cat = .xv ∧ m.next ≤ e.addr ∧ e.addr < m1.next ∧
          m1.get e.addr = Λ.emptyVal b) := by
    intro n
    induction n with
    | zero =>
      intro k m es m1 h
      simp only [List.range'_zero, getAll, Option.some.injEq, Prod.mk.injEq] at h
      rw [← h.1, ← h.2]
      exact ⟨rfl, Grows.refl _ _, by omega⟩
    | succ n ih =>
      intro k m es m1 h
      rw [List.range'_succ, getAll] at h
      split at h
      · simp at h
      · rename_i e m0 hm
        split at h
        · simp at h
        · rename_i es' m2 hr
          simp only [Option.some.injEq, Prod.mk.injEq] at h
          obtain ⟨rfl, rfl⟩ := h
          obtain ⟨h1, h2, h3⟩ := ih _ _ _ _ hr
          have hfirst : Grows (fun _ => False) m m0 ∧ (t.get c cat k = .glvalue e ∨ ∃ b, t.get c cat k = .prvalue b ∧ e.base = b ∧
              e.cat = .xv ∧ m.next ≤ e.addr ∧ e.addr < m0.next ∧ m0.get e.addr = Λ.emptyVal b) := by
            rcases hg : t.get c cat k with _ | _ | e' | b
            · rw [hg] at hm; simp [materialise] at hm
            · rw [hg] at hm; simp [materialise] at hm
            · rw [hg] at hm
              simp only [materialise, Option.some.injEq, Prod.mk.injEq] at hm
              obtain ⟨rfl, rfl⟩ := hm
              exact ⟨Grows.refl _ _, .inl rfl⟩
            · rw [hg] at hm
              simp only [materialise, Option.some.injEq, Prod.mk.injEq] at hm
              obtain ⟨rfl, rfl⟩ := hm
              exact ⟨Grows.alloc _ _ _, .inr ⟨b, rfl, rfl, rfl, Nat.le_refl _, by simp [Mem.alloc], by simp [Mem.alloc]⟩⟩
          obtain ⟨g0, hfirst⟩ := hfirst
          have n0 := g0.next
          have n2 := h2.next
          refine ⟨by simp [h1], g0.trans h2, ?_⟩
          intro i hi
          cases i with
          | zero =>
            refine ⟨e, rfl, ?_⟩
            rcases hfirst with h | ⟨b, q1, q2, q3, q4, q5, q6⟩
            · exact .inl h
            · exact .inr ⟨b, q1, q2, q3, q4, by omega, by rw [h2.frame _ q5 (by simp), q6]⟩
          | succ i =>
            obtain ⟨e', p1, p2⟩ := h3 i (by omega)
            refine ⟨e', by simpa using p1, ?_⟩
            rw [show k + (i + 1) = k + 1 + i by omega]
            rcases p2 with h | ⟨b, q1, q2, q3, q4, q5, q6⟩
            · exact .inl h
            · exact .inr ⟨b, q1, q2, q3, by omega, q5, q6⟩
  simp only [apply, applyImpl] at h
  split at h
  · simp at h
  · rename_i es m1 hg
    simp only [Option.some.injEq, Prod.mk.injEq] at h
    rw [List.range_eq_range'] at hg
    obtain ⟨h1, h2, h3⟩ := key _ _ _ _ _ hg
    exact ⟨es, m1, h.1.symm, h.2.symm, h1, h2, by simpa using h3⟩

/-- How `std::get` sees an element of a `std::tuple` used as a (const) lvalue or xvalue. -/
def SeenStd (c : Bool) (cat : Cat) (p : Ty B × Nat) (e : Expr B) : Prop :=
  e.base = p.1.base ∧ e.addr = p.2 ∧ e.v = p.1.v ∧ e.c = (p.1.c || (c && decide (p.1.ref = .none))) ∧
  e.cat = if p.1.ref = .lref then .lv else cat

/-- **C43** for a `std::tuple`: the call is the call of the function on the elements. -/
theorem C43_apply_std (Λ : Lang B V) (els : List (Ty B × Nat)) (c : Bool) (cat : Cat) (m : Mem V L) :
    ∃ es, Pairs (SeenStd c cat) els es ∧ ∀ (R : Type) (f : List (Expr B) → Mem V L → R × Mem V L),
      apply Λ f (.std els) c cat m = some (f es m) := by
  have key : ∀ (n k : Nat), k + n = els.length → ∃ es, getAll Λ (.std els) c cat (List.range' k n) m = some (es, m) ∧ es.length = n ∧
      ∀ (i : Nat) p, els[k + i]? = some p → ∃ e, es[i]? = some e ∧ SeenStd c cat p e := by
    intro n
    induction n with
    | zero =>
      intro k hk
      refine ⟨[], rfl, rfl, ?_⟩
      intro i p hp
      have := (List.getElem?_eq_some_iff.1 hp).1
      omega
    | succ n ih =>
      intro k hk
      obtain ⟨es, h1, h2, h3⟩ := ih (k + 1) (by omega)
      have hkl : k < els.length := by omega
      rcases hp : els[k] with ⟨ty, addr⟩
      refine ⟨access ty addr c cat :: es, ?_, by simp [h2], ?_⟩
      · rw [List.range'_succ, getAll]
        simp [Tup.get, hkl, hp, materialise, h1]
      · intro i p hi
        cases i with
        | zero =>
          simp only [Nat.add_zero, List.getElem?_eq_getElem hkl, hp, Option.some.injEq] at hi
          subst hi
          refine ⟨_, rfl, ?_⟩
          rcases ty with ⟨b, tc, tv, r⟩
          cases r <;> cases c <;> cases cat <;> cases tc <;>
            simp [SeenStd, access, Expr.ofRef, Ty.addLref, Ty.addRref, Ty.addConst]
        | succ i =>
          obtain ⟨e, q1, q2⟩ := h3 i p (by rw [← hi]; congr 1; omega)
          exact ⟨e, by simpa using q1, q2⟩
  obtain ⟨es, h1, h2, h3⟩ := key els.length 0 (by omega)
  refine ⟨es, ⟨h2, by simpa using h3⟩, ?_⟩
  intro R f
  rw [← List.range_eq_range'] at h1
  simp only [apply, Tup.size, applyImpl, h1, Mem.killRange_self]

/-- An empty element between two others, apply on an rvalue tuple: the function gets two xvalues denoting the stored objects and one new object. -/
example : (apply exLang (fun es (m : Mem Nat Unit) => (es.map fun e => (e.addr, e.cat, m.get e.addr), m))
      (.compressed [.stored ⟨"int", false, false, .none⟩ 0, .empty "E", .stored ⟨"int", false, false, .lref⟩ 1]) false .xv (memOf [5, 6])).map (·.1) =
    some [(0, .xv, 5), (2, .xv, 0), (1, .lv, 6)] := by decide

example : (∀ el ∈ [Elem.stored (⟨"int", false, false, .none⟩ : Ty String) 0, .empty "E"], el.constOk true) := by simp [Elem.constOk]

/-! ### C44 -/

/-- **C44** (partial: not for elements of empty type). `to_tuple(t)` is a tuple of references; for an element of `t` that is not of empty type it
denotes that object, whatever happens to memory afterwards. Nothing is changed. -/
theorem C44_to_tuple_partial (Λ : Lang B V) (els : List (Elem B)) (c : Bool) (cat : Cat) (m : Mem V L)
    (hok : ∀ el ∈ els, el.constOk c) :
    ∃ rs m', toTuple Λ (.compressed els) c cat m = some (.std rs, m') ∧ rs.length = els.length ∧ m'.world = m.world ∧
      (∀ a < m.next, m'.get a = m.get a ∧ m'.alive a = m.alive a) ∧
      (∀ p ∈ rs, p.1.ref ≠ .none) ∧
      ∀ (i : Nat) ty addr, els[i]? = some (.stored ty addr) → ∃ r, rs[i]? = some (r, addr) ∧ r.base = ty.base ∧ r.c = (ty.c || c) ∧
        r.v = ty.v ∧ (r.ref = .lref ↔ cat = .lv ∨ (c = false ∧ ty.ref = .lref)) := by
  obtain ⟨es, m', g, hp, -, hap⟩ := C43_apply Λ els c cat m hok
  refine ⟨es.map fun e => (declTypeFwd e, e.addr), _, hap _ _, by simp [hp.1], g.world, ?_, ?_, ?_⟩
  · intro a ha
    refine ⟨g.frame a ha (by simp), ?_⟩
    have : ¬ m.next ≤ a := by omega
    simp [Mem.killRange, this, g.aliveOld a ha]
  · intro p hpm
    obtain ⟨e, -, rfl⟩ := List.mem_map.1 hpm
    simp only [declTypeFwd, deduceFwd, Ty.addRref]
    rcases e.cat <;> simp
  · intro i ty addr hi
    obtain ⟨e, h1, h2, h3, h4, h5, h6, h7⟩ := hp.2 i _ hi
    refine ⟨declTypeFwd e, by simp [h1, h5], ?_⟩
    have hcat : e.cat = if cat = .lv ∨ (c = false ∧ ty.ref = .lref) then .lv else .xv := by
      cases c
      · rw [h6 rfl]; cases cat <;> simp
      · rw [h7 rfl]; cases cat <;> simp
    by_cases h : cat = .lv ∨ (c = false ∧ ty.ref = .lref)
    · rw [if_pos h] at hcat
      simp [declTypeFwd, deduceFwd, Ty.addRref, hcat, h2, h3, h4, h]
    · rw [if_neg h] at hcat
      simp [declTypeFwd, deduceFwd, Ty.addRref, hcat, h2, h3, h4, h]

/-- **C44** for a `std::tuple`: all elements. -/
theorem C44_to_tuple_std (Λ : Lang B V) (els : List (Ty B × Nat)) (c : Bool) (cat : Cat) (m : Mem V L) :
    ∃ rs, toTuple Λ (.std els) c cat m = some (.std rs, m) ∧ rs.length = els.length ∧
      ∀ (i : Nat) ty addr, els[i]? = some (ty, addr) → ∃ r, rs[i]? = some (r, addr) ∧ r.base = ty.base ∧ r.v = ty.v ∧
        r.c = (ty.c || (c && decide (ty.ref = .none))) ∧ r.ref = if cat = .lv ∨ ty.ref = .lref then .lref else .rref := by
  obtain ⟨es, hp, hap⟩ := C43_apply_std Λ els c cat m
  refine ⟨es.map fun e => (declTypeFwd e, e.addr), hap _ _, by simp [hp.1], ?_⟩
  intro i ty addr hi
  obtain ⟨e, h1, h2, h3, h4, h5, h6⟩ := hp.2 i _ hi
  simp only at h2 h3 h4 h5 h6
  refine ⟨declTypeFwd e, by simp [h1, h3], ?_⟩
  by_cases h : ty.ref = .lref
  · rw [if_pos h] at h6
    simp [declTypeFwd, deduceFwd, Ty.addRref, h6, h2, h4, h5, h]
  · rw [if_neg h] at h6
    cases cat <;> simp [declTypeFwd, deduceFwd, Ty.addRref, h6, h2, h4, h5, h]

/-- **C44 is false** for elements of empty type: the reference denotes an object that no longer exists when `to_tuple` returns. -/
theorem C44_empty_dangles (Λ : Lang B V) (els : List (Elem B)) (c : Bool) (cat : Cat) (m : Mem V L)
    (hok : ∀ el ∈ els, el.constOk c) (i : Nat) (b : B) (hi : els[i]? = some (.empty b)) :
    ∃ rs m' r a, toTuple Λ (.compressed els) c cat m = some (.std rs, m') ∧ rs[i]? = some (r, a) ∧ r.ref = .rref ∧ m'.alive a = false := by
  obtain ⟨es, m', g, hp, -, hap⟩ := C43_apply Λ els c cat m hok
  obtain ⟨e, h1, h2, h3, h4, h5, h6, h7, -⟩ := hp.2 i _ hi
  refine ⟨_, _, declTypeFwd e, e.addr, hap _ _, by simp [h1], ?_, ?_⟩
  · simp [declTypeFwd, deduceFwd, Ty.addRref, h5]
  · simp [Mem.killRange, h6, h7]

/-- Writing through the tuple of references is seen in the tuple; the empty element dangles. -/
example : (toTuple exLang (.compressed [.stored ⟨"int", false, false, .none⟩ 0, .empty "E", .stored ⟨"int", true, false, .lref⟩ 1]) false .lv
      (memOf [5, 6])).map (fun r => match r.1 with | .std rs => rs.map fun p => (p.1.ref, p.1.c, p.2, r.2.alive p.2) | _ => []) =
    some [(.lref, false, 0, true), (.rref, false, 2, false), (.lref, true, 1, true)] := by decide

/-! ### C45 -/

/-- **C45.** The function is invoked once, with one item per argument, numbered from zero; the value of an item is the argument as it was passed,
i.e. the same object with the same constness and value category, and the type of the item is a reference. -/
theorem C45_enumerate_pack {X : Type} (f : List (Item B) → X) (pack : List (Expr B)) :
    ∃ items, enumeratePack f pack = f items ∧ items.length = pack.length ∧
      ∀ (i : Nat) e, pack[i]? = some e → ∃ t, items[i]? = some ⟨i, t, e⟩ ∧ t = e.type := by
  have key : ∀ (l : List (Expr B)) (k n : Nat), (∀ i < n, k + i < l.length) →
      ((List.range' k n).flatMap fun i =>
        ((l.map fun e => (declTypeFwd e, e))[i]?.map fun r => (⟨i, r.1, Expr.ofRef r.1 r.2.addr⟩ : Item B)).toList) =
      (List.range' k n).flatMap fun i => (l[i]?.map fun e => (⟨i, e.type, e⟩ : Item B)).toList := by
    intro l k n _
    congr 1
    funext i
    rw [List.getElem?_map]
    rcases l[i]? with _ | ⟨b, c, v, cat, a⟩
    · rfl
    · cases cat <;> rfl
  have key2 : ∀ (n k : Nat), k + n = pack.length →
      ∃ items, ((List.range' k n).flatMap fun i => (pack[i]?.map fun e => (⟨i, e.type, e⟩ : Item B)).toList) = items ∧ items.length = n ∧
        ∀ (i : Nat) e, pack[k + i]? = some e → items[i]? = some ⟨k + i, e.type, e⟩ := by
    intro n
    induction n with
    | zero =>
      intro k hk
      refine ⟨[], rfl, rfl, fun i e h => ?_⟩
      have := (List.getElem?_eq_some_iff.1 h).1
      omega
    | succ n ih =>
      intro k hk
      obtain ⟨items, h1, h2, h3⟩ := ih (k + 1) (by omega)
      have hkl : k < pack.length := by omega
      refine ⟨⟨k, pack[k].type, pack[k]⟩ :: items, ?_, by simp [h2], ?_⟩
      · rw [List.range'_succ, List.flatMap_cons, h1]
        simp [hkl]
      · intro i e hi
        cases i with
        | zero =>
          simp only [Nat.add_zero, List.getElem?_eq_getElem hkl, Option.some.injEq] at hi
          simp [hi]
        | succ i =>
          have := h3 i e (by rw [← hi]; congr 1; omega)
          rw [List.getElem?_cons_succ, this, show k + 1 + i = k + (i + 1) by omega]
  obtain ⟨items, h1, h2, h3⟩ := key2 pack.length 0 (by omega)
  refine ⟨items, ?_, h2, ?_⟩
  · simp only [enumeratePack]
    rw [List.range_eq_range', key pack 0 pack.length (by omega), h1]
  · intro i e hi
    exact ⟨_, by simpa using h3 i e (by simpa using hi), rfl⟩

omit [DecidableEq B] in
theorem alloc_range (ofNat : Nat → V) (m : Mem V L) : ∀ n,
    let m1 := (List.range n).foldl (fun m i => m.alloc (ofNat i)) m
    Grows (fun _ => False) m m1 ∧ m1.next = m.next + n ∧ ∀ i < n, m1.get (m.next + i) = ofNat i
  | 0 => ⟨Grows.refl _ _, rfl, by omega⟩
  | n + 1 => by
    obtain ⟨g, h1, h2⟩ := alloc_range ofNat m n
    intro m1
    have e : m1 = ((List.range n).foldl (fun m i => m.alloc (ofNat i)) m).alloc (ofNat n) := by
      simp [m1, List.range_succ, List.foldl_append]
    rw [e]
    generalize (List.range n).foldl (fun m i => m.alloc (ofNat i)) m = q at g h1 h2
    refine ⟨g.trans (Grows.alloc _ _ _), by simp [Mem.alloc, h1]; omega, ?_⟩
    intro i hi
    by_cases h : i = n
    · subst h
      simp [Mem.alloc, h1]
    · simp only [Mem.alloc, h1]
      rw [if_neg (by omega), h2 i (by omega)]

/-- **C45** for `enumerate_n<n>(f)`: item `i` has index `i` and its value is an rvalue `size_t` holding `i`, alive during the call and gone
afterwards. -/
theorem C45_enumerate_n (sizeT : B) (ofNat : Nat → V) (n : Nat) (m : Mem V L) :
    ∃ items m1, items.length = n ∧ Grows (fun _ => False) m m1 ∧
      (∀ i < n, ∃ t e, items[i]? = some ⟨i, t, e⟩ ∧ t = ⟨sizeT, false, false, .rref⟩ ∧ e.base = sizeT ∧ e.c = false ∧ e.cat = .xv ∧
        m1.get e.addr = ofNat i ∧ m1.alive e.addr = true) ∧
      ∀ (R : Type) (f : List (Item B) → Mem V L → R × Mem V L),
        (enumerateN sizeT ofNat n f m).1 = (f items m1).1 ∧
        (enumerateN sizeT ofNat n f m).2.get = (f items m1).2.get ∧ (enumerateN sizeT ofNat n f m).2.world = (f items m1).2.world ∧
        ∀ a, (enumerateN sizeT ofNat n f m).2.alive a =
          ((f items m1).2.alive a && !(decide (m.next ≤ a) && decide (a < m.next + n))) := by
  obtain ⟨g, h1, h2⟩ := alloc_range ofNat m n
  obtain ⟨items, p1, p2, p3⟩ := C45_enumerate_pack (X := List (Item B)) id
    ((List.range n).map fun i => (⟨sizeT, false, false, .xv, m.next + i⟩ : Expr B))
  simp only [List.length_map, List.length_range] at p2
  refine ⟨items, (List.range n).foldl (fun m i => m.alloc (ofNat i)) m, p2, g, ?_, ?_⟩
  · intro i hi
    obtain ⟨t, q1, q2⟩ := p3 i ⟨sizeT, false, false, .xv, m.next + i⟩ (by simp [hi])
    refine ⟨t, _, q1, by rw [q2]; rfl, rfl, rfl, rfl, h2 i hi, g.aliveNew _ (by simp) (by rw [h1]; simp only; omega)⟩
  · intro R f
    have hk : ∀ (as : List Nat) (m : Mem V L), (m.killAll as).get = m.get ∧ (m.killAll as).world = m.world ∧
        ∀ a, (m.killAll as).alive a = (m.alive a && !decide (a ∈ as)) := by
      intro as
      induction as with
      | nil => intro m; simp [Mem.killAll]
      | cons x xs ih =>
        intro m
        obtain ⟨k1, k2, k3⟩ := ih (m.kill x)
        simp only [Mem.killAll, List.foldl_cons] at k1 k2 k3 ⊢
        refine ⟨k1, k2, ?_⟩
        intro a
        rw [k3 a]
        simp only [Mem.kill, List.mem_cons]
        by_cases h : a = x <;> by_cases h' : a ∈ xs <;> simp [h, h']
    have he : enumeratePack f ((List.range n).map fun i => (⟨sizeT, false, false, .xv, m.next + i⟩ : Expr B)) = f items :=
      congrArg f p1
    obtain ⟨k1, k2, k3⟩ := hk ((List.range n).map (m.next + ·)) (f items ((List.range n).foldl (fun m i => m.alloc (ofNat i)) m)).2
    simp only [enumerateN, he]
    refine ⟨trivial, k1, k2, ?_⟩
    intro a
    rw [k3 a]
    congr 2
    rw [← Bool.decide_and]
    apply decide_eq_decide.2
    simp only [List.mem_map, List.mem_range]
    constructor
    · rintro ⟨i, hi, rfl⟩; omega
    · intro h; exact ⟨a - m.next, by omega, by omega⟩

/-- Three arguments: an lvalue, an rvalue and a const lvalue denoting the first object again. -/
example : enumeratePack (fun items => items.map fun it => (it.index, it.value.addr, it.value.cat, it.value.c))
    [(⟨"int", false, false, .lv, 0⟩ : Expr String), ⟨"tuple", false, false, .xv, 1⟩, ⟨"int", true, false, .lv, 0⟩] =
    [(0, 0, .lv, false), (1, 1, .xv, false), (2, 0, .lv, true)] := by decide

example : (enumerateN "size_t" id 3 (fun items (m : Mem Nat Unit) => (items.map fun it => (it.index, m.get it.value.addr), m)) (memOf [5])).1 =
    [(0, 0), (1, 1), (2, 2)] := by decide

end Pigro.Cxx
