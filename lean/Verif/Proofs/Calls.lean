import Verif.Spec.Calls
import Verif.Proofs.Bind
/-!
# Repeated calls
-/
namespace Pigro.Cxx
variable {B V L R : Type}

theorem temporaries_spec (xs : List (B × V)) : ∀ (m : Mem V L),
    let r := temporaries xs m
    Grows (fun _ => False) m r.2 ∧ r.1.length = xs.length ∧
    (∀ (i : Nat) (x : B × V), xs[i]? = some x → r.1[i]? = some ⟨x.1, false, false, .xv, m.next + i⟩ ∧
      m.next + i < r.2.next ∧ r.2.get (m.next + i) = x.2) ∧ r.2.next = m.next + xs.length := by
  induction xs with
  | nil => intro m; exact ⟨Grows.refl _ _, rfl, by simp, rfl⟩
  | cons x xs ih =>
    intro m
    obtain ⟨b, v⟩ := x
    obtain ⟨g, l, k, n⟩ := ih (m.alloc v)
    have hn : (m.alloc v).next = m.next + 1 := rfl
    refine ⟨(Grows.alloc _ m v).trans g, by simp [temporaries, l], ?_, ?_⟩
    · intro i x hi
      cases i with
      | zero =>
        simp only [List.getElem?_cons_zero, Option.some.injEq] at hi
        subst hi
        refine ⟨by simp [temporaries], ?_, ?_⟩
        · simp only [temporaries]; have := g.next; omega
        · show (temporaries xs (m.alloc v)).2.get _ = _
          rw [g.frame _ (by omega) (by simp)]
          simp [Mem.alloc]
      | succ i =>
        simp only [List.getElem?_cons_succ] at hi
        obtain ⟨k1, k2, k3⟩ := k i x hi
        have e : m.next + (i + 1) = (m.alloc v).next + i := by omega
        rw [e]
        exact ⟨by simpa [temporaries] using k1, k2, k3⟩
    · simp only [temporaries, n, hn, List.length_cons]; omega

theorem assignAll_other (es : List (Expr B)) (g : Nat → V) (a : Nat) : ∀ (k : Nat) (m : Mem V L),
    (∀ e ∈ es, e.c = false → e.addr ≠ a) → (assignAll es g k m).get a = m.get a := by
  induction es with
  | nil => intro k m _; rfl
  | cons e es ih =>
    intro k m h
    rw [assignAll, ih (k + 1) _ (fun e' he' => h e' (by simp [he']))]
    cases hc : e.c
    · have := h e (by simp) hc
      simp [Mem.write, this.symm]
    · simp

theorem assignAll_at (es : List (Expr B)) (g : Nat → V) : ∀ (k : Nat) (m : Mem V L) (i : Nat) (e : Expr B),
    es[i]? = some e → e.c = false → (∀ (j : Nat) (e' : Expr B), es[j]? = some e' → i < j → e'.addr ≠ e.addr) →
    (assignAll es g k m).get e.addr = g (k + i) := by
  induction es with
  | nil => intro k m i e h; simp at h
  | cons x es ih =>
    intro k m i e h hc hd
    cases i with
    | zero =>
      simp only [List.getElem?_cons_zero, Option.some.injEq] at h
      subst h
      rw [assignAll, assignAll_other]
      · simp [hc, Mem.write]
      · intro e' he' _
        obtain ⟨j, hj⟩ := List.mem_iff_getElem?.1 he'
        exact hd (j + 1) e' (by simpa using hj) (by omega)
    | succ i =>
      simp only [List.getElem?_cons_succ] at h
      rw [assignAll, ih (k + 1) _ i e h hc]
      · congr 1; omega
      · intro j e' hj hij
        exact hd (j + 1) e' (by simpa using hj) (by omega)

theorem assignAll_next (es : List (Expr B)) (g : Nat → V) : ∀ (k : Nat) (m : Mem V L),
    (assignAll es g k m).next = m.next := by
  induction es with
  | nil => intro k m; rfl
  | cons e es ih =>
    intro k m
    rw [assignAll, ih]
    cases e.c <;> rfl

theorem updateVals_getElem (c : Bool) : ∀ (els : List (Elem B)) (vs : List V) (g : Nat → V) (k : Nat), vs.length = els.length →
    ∀ (i : Nat) (el : Elem B) (v : V), els[i]? = some el → vs[i]? = some v →
    (updateVals c els vs g k)[i]? = some (el.updated c v (g (k + i))) := by
  intro els
  induction els with
  | nil => intro vs g k _ i el v h; simp at h
  | cons x els ih =>
    intro vs g k hl i el v h1 h2
    cases vs with
    | nil => simp at h2
    | cons w vs =>
      cases i with
      | zero =>
        simp only [List.getElem?_cons_zero, Option.some.injEq] at h1 h2
        subst h1 h2
        simp [updateVals]
      | succ i =>
        simp only [List.getElem?_cons_succ] at h1 h2
        have := ih vs g (k + 1) (by simpa using hl) i el v h1 h2
        rw [show k + 1 + i = k + (i + 1) by omega] at this
        simpa [updateVals] using this

theorem updateVals_length (c : Bool) : ∀ (els : List (Elem B)) (vs : List V) (g : Nat → V) (k : Nat),
    (updateVals c els vs g k).length = vs.length := by
  intro els
  induction els with
  | nil => intro vs g k; simp [updateVals]
  | cons x els ih =>
    intro vs g k
    cases vs with
    | nil => simp [updateVals]
    | cons w vs => simp [updateVals, ih]

/-- The objects of a bound callable, found again. -/
theorem Bound.Separate.spec {b : Bound B} {next : Nat} (h : b.Separate next) :
    (∀ ty a, b.f = .stored ty a → a < next) ∧ (∀ (i : Nat) ty a, b.els[i]? = some (.stored ty a) → a < next) ∧
    (∀ (i : Nat) ty a ty' a', b.f = .stored ty a → b.els[i]? = some (.stored ty' a') → a ≠ a') ∧
    (∀ (i j : Nat) ty a ty' a', i ≠ j → b.els[i]? = some (.stored ty a) → b.els[j]? = some (.stored ty' a') → a ≠ a') := by
  obtain ⟨h1, h2⟩ := h
  have pw : ∀ (els : List (Elem B)), (els.filterMap Elem.object).Nodup → ∀ (i j : Nat) ty a ty' a', i < j →
      els[i]? = some (.stored ty a) → els[j]? = some (.stored ty' a') → a ≠ a' := by
    intro els
    induction els with
    | nil => intro _ i j ty a ty' a' _ h; simp at h
    | cons x els ih =>
      intro hnd i j ty a ty' a' hij hi hj
      cases j with
      | zero => omega
      | succ j =>
        simp only [List.getElem?_cons_succ] at hj
        cases i with
        | zero =>
          simp only [List.getElem?_cons_zero, Option.some.injEq] at hi
          subst hi
          simp only [List.filterMap_cons, Elem.object, List.nodup_cons] at hnd
          rintro rfl
          exact hnd.1 (List.mem_filterMap.2 ⟨_, List.mem_of_getElem? hj, rfl⟩)
        | succ i =>
          simp only [List.getElem?_cons_succ] at hi
          refine ih ?_ i j ty a ty' a' (by omega) hi hj
          rw [List.filterMap_cons] at hnd
          split at hnd
          · exact hnd
          · exact (List.nodup_cons.1 hnd).2
  refine ⟨?_, ?_, ?_, ?_⟩
  · intro ty a hf
    exact h2 a (List.mem_filterMap.2 ⟨b.f, by simp, by rw [hf]; rfl⟩)
  · intro i ty a hi
    exact h2 a (List.mem_filterMap.2 ⟨_, List.mem_cons_of_mem _ (List.mem_of_getElem? hi), rfl⟩)
  · intro i ty a ty' a' hf hi
    exact pw (b.f :: b.els) h1 0 (i + 1) ty a ty' a' (by omega) (by simp [hf]) (by simpa using hi)
  · intro i j ty a ty' a' hij hi hj
    rcases Nat.lt_or_gt_of_ne hij with h | h
    · exact pw (b.f :: b.els) h1 (i + 1) (j + 1) ty a ty' a' (by omega) (by simpa using hi) (by simpa using hj)
    · exact (pw (b.f :: b.els) h1 (j + 1) (i + 1) ty' a' ty a (by omega) (by simpa using hj) (by simpa using hi)).symm

/-- Values held by the elements. -/
def HoldAll (Λ : Lang B V) (m : Mem V L) (els : List (Elem B)) (vs : List V) : Prop :=
  Pairs (Elem.holds Λ m) els vs

theorem holdAll_map {Λ : Lang B V} {m m' : Mem V L} {c : Bool} {els : List (Elem B)} {ts : List (Expr B)} {vs : List V}
    {S : Nat → Prop} (hg : Grows S m m') (hold : HoldAll Λ m els vs) (hp : Pairs (PassedElem Λ m m' c) els ts)
    (hlt : ∀ (i : Nat) ty a, els[i]? = some (.stored ty a) → a < m.next ∧ ¬ S a) :
    (ts.map fun e => m'.get e.addr) = vs := by
  apply List.ext_getElem?
  intro i
  by_cases hi : i < els.length
  · obtain ⟨v, h1, h2⟩ := hold.2 i els[i] (by simp [hi])
    obtain ⟨e, h3, h4⟩ := hp.2 i els[i] (by simp [hi])
    rw [h1, List.getElem?_map, h3]
    simp only [Option.map_some, Option.some.injEq]
    rcases hel : els[i] with b | ⟨ty, a⟩
    · rw [hel] at h2 h4
      rw [h4.2.2.2.2.2.2, h2]
    · rw [hel] at h2 h4
      have := hlt i ty a (by rw [← hel]; simp [hi])
      rw [h4]
      simp only
      rw [hg.frame a this.1 this.2]
      exact h2
  · rw [List.getElem?_eq_none (by rw [List.length_map, hp.1]; omega), List.getElem?_eq_none (by rw [hold.1]; omega)]

/-- The elements after assigning to the arguments, among which they stand from position `k` on; the others are new objects. -/
theorem elems_after (Λ : Lang B V) (els : List (Elem B)) (vs : List V) (es : List (Expr B)) (g : Nat → V) (k N : Nat)
    (c : Bool) (M : Mem V L)
    (hel : ∀ (i : Nat) (el : Elem B), els[i]? = some el → ∃ e, es[k + i]? = some e ∧
      match el with | .stored ty a => e.addr = a ∧ e.c = (ty.c || c) | .empty _ => N ≤ e.addr)
    (hother : ∀ (j : Nat) (e : Expr B), es[j]? = some e → (j < k ∨ k + els.length ≤ j) → N ≤ e.addr)
    (hlt : ∀ (i : Nat) ty a, els[i]? = some (.stored ty a) → a < N)
    (hsep : ∀ (i j : Nat) ty a ty' a', i ≠ j → els[i]? = some (.stored ty a) → els[j]? = some (.stored ty' a') → a ≠ a')
    (hold : HoldAll Λ M els vs) :
    HoldAll Λ (assignAll es g 0 M) els (updateVals c els vs g k) ∧
    ∀ a < N, (∀ (i : Nat) ty a', els[i]? = some (.stored ty a') → a' ≠ a) → (assignAll es g 0 M).get a = M.get a := by
  -- where an address below `N` can come from
  have hfrom : ∀ (j : Nat) (e : Expr B), es[j]? = some e → e.addr < N →
      ∃ i ty, j = k + i ∧ els[i]? = some (.stored ty e.addr) ∧ e.c = (ty.c || c) := by
    intro j e hj he
    by_cases hr : j < k ∨ k + els.length ≤ j
    · have := hother j e hj hr; omega
    · have hjk : j = k + (j - k) := by omega
      have hjl : j - k < els.length := by omega
      obtain ⟨e', h1, h2⟩ := hel (j - k) els[j - k] (by simp [hjl])
      rw [← hjk, hj] at h1
      simp only [Option.some.injEq] at h1
      subst h1
      rcases hx : els[j - k] with b | ⟨ty, a⟩
      · rw [hx] at h2; simp only at h2; omega
      · rw [hx] at h2
        simp only at h2
        exact ⟨j - k, ty, hjk, by rw [h2.1, ← hx]; simp [hjl], h2.2⟩
  refine ⟨⟨by rw [updateVals_length]; exact hold.1, ?_⟩, ?_⟩
  · intro i el hi
    obtain ⟨v, hv, hh⟩ := hold.2 i el hi
    refine ⟨_, updateVals_getElem c els vs g k hold.1 i el v hi hv, ?_⟩
    rcases el with b | ⟨ty, a⟩
    · exact hh
    · obtain ⟨e, he1, he2, he3⟩ := hel i _ hi
      simp only [Elem.holds, Elem.updated] at hh ⊢
      have ha := hlt i ty a hi
      have huniq : ∀ (j : Nat) (e' : Expr B), es[j]? = some e' → e'.addr = a → j = k + i := by
        intro j e' hj hja
        obtain ⟨i', ty', h1, h2, -⟩ := hfrom j e' hj (by omega)
        by_cases hii : i' = i
        · rw [h1, hii]
        · exact absurd hja (hsep i' i ty' _ ty a hii h2 hi)
      cases hc : (ty.c || c)
      · rw [hc] at he3
        simp only [Bool.false_eq_true, if_false]
        rw [← he2, assignAll_at es g 0 M (k + i) e he1 he3, Nat.zero_add]
        intro j e' hj hlt' hja
        have := huniq j e' hj (by rw [hja, he2])
        omega
      · rw [hc] at he3
        simp only [if_true]
        rw [assignAll_other, hh]
        intro e' he' hc' hja
        obtain ⟨j, hj⟩ := List.mem_iff_getElem?.1 he'
        have := huniq j e' hj hja
        rw [this, he1] at hj
        simp only [Option.some.injEq] at hj
        subst hj
        rw [he3] at hc'
        simp at hc'
  · intro a ha hne
    apply assignAll_other
    intro e he _ hea
    obtain ⟨j, hj⟩ := List.mem_iff_getElem?.1 he
    obtain ⟨i, ty, -, h2, -⟩ := hfrom j e hj (by omega)
    exact hne i ty _ h2 hea

theorem HoldAll.frame {Λ : Lang B V} {m m' : Mem V L} {els : List (Elem B)} {vs : List V} (h : HoldAll Λ m els vs)
    (hf : ∀ (i : Nat) ty a, els[i]? = some (.stored ty a) → m'.get a = m.get a) : HoldAll Λ m' els vs := by
  refine ⟨h.1, ?_⟩
  intro i el hi
  obtain ⟨v, h1, h2⟩ := h.2 i el hi
  refine ⟨v, h1, ?_⟩
  rcases el with b | ⟨ty, a⟩
  · exact h2
  · simp only [Elem.holds] at h2 ⊢
    rw [hf i ty a hi, h2]

theorem Bound.Separate.mono {b : Bound B} {n n' : Nat} (h : b.Separate n) (hn : n ≤ n') : b.Separate n' :=
  ⟨h.1, fun a ha => Nat.lt_of_lt_of_le (h.2 a ha) hn⟩

/-- Arguments that are new objects. -/
theorem temporaries_args (vals : List (B × V)) (m : Mem V L) :
    let a := temporaries vals m
    (∀ e ∈ a.1, e.addr < a.2.next ∧ m.next ≤ e.addr ∧ e.cat = .xv) ∧ Apart a.1 ∧
    (∀ as m', Pairs (Captured a.2 m') a.1 as → (as.map fun e => m'.get e.addr) = vals.map (·.2)) ∧
    (∀ as m', Pairs (Decayed a.2 m') a.1 as → (as.map fun e => m'.get e.addr) = vals.map (·.2)) := by
  obtain ⟨g, l, k, n⟩ := temporaries_spec vals m
  intro a
  have l : a.1.length = vals.length := l
  have hmem : ∀ e ∈ a.1, e.addr < a.2.next ∧ m.next ≤ e.addr ∧ e.cat = .xv := by
    intro e he
    obtain ⟨i, hi⟩ := List.mem_iff_getElem?.1 he
    have hil : i < vals.length := by have := (List.getElem?_eq_some_iff.1 hi).1; omega
    obtain ⟨k1, k2, k3⟩ := k i vals[i] (by simp [hil])
    rw [hi] at k1
    simp only [Option.some.injEq] at k1
    subst k1
    exact ⟨k2, by simp, rfl⟩
  have hvals : ∀ (as : List (Expr B)) (m' : Mem V L), as.length = a.1.length →
      (∀ (i : Nat) (e : Expr B), a.1[i]? = some e → ∃ e', as[i]? = some e' ∧ m'.get e'.addr = a.2.get e.addr) →
      (as.map fun e => m'.get e.addr) = vals.map (·.2) := by
    intro as m' hlen h
    apply List.ext_getElem?
    intro i
    by_cases hil : i < vals.length
    · obtain ⟨k1, k2, k3⟩ := k i vals[i] (by simp [hil])
      obtain ⟨e', h1, h2⟩ := h i _ k1
      rw [List.getElem?_map, h1, List.getElem?_map, List.getElem?_eq_getElem hil]
      simp only [Option.map_some, Option.some.injEq]
      rw [h2]
      exact k3
    · rw [List.getElem?_eq_none (by rw [List.length_map, hlen]; omega),
        List.getElem?_eq_none (by rw [List.length_map]; omega)]
  refine ⟨hmem, ?_, ?_, ?_⟩
  · rw [Apart, List.pairwise_iff_getElem]
    intro i j hi hj hij _
    have hi' : i < vals.length := by omega
    have hj' : j < vals.length := by omega
    obtain ⟨k1, -⟩ := k i vals[i] (by simp [hi'])
    obtain ⟨k2, -⟩ := k j vals[j] (by simp [hj'])
    have e1 := (List.getElem?_eq_some_iff.1 k1).2
    have e2 := (List.getElem?_eq_some_iff.1 k2).2
    show a.1[i].addr ≠ a.1[j].addr
    rw [show a.1[i] = _ from e1, show a.1[j] = _ from e2]
    simp only
    omega
  · intro as m' hp
    refine hvals as m' hp.1 ?_
    intro i e hi
    obtain ⟨e', h1, h2⟩ := hp.2 i e hi
    refine ⟨e', h1, ?_⟩
    have := (hmem e (List.mem_of_getElem? hi)).2.2
    simp only [Captured, this] at h2
    exact h2.2.2.2.2.2.2
  · intro as m' hp
    refine hvals as m' hp.1 ?_
    intro i e hi
    obtain ⟨e', h1, h2⟩ := hp.2 i e hi
    exact ⟨e', h1, h2.2.2.2.2.2.2⟩

theorem Apart.xv {es : List (Expr B)} (h : Apart es) : XvApart es :=
  List.Pairwise.imp (fun h h1 _ => h (.inl h1)) h

theorem lone_idx (idxOf : B → Option Nat) (vals : List (B × V)) (m : Mem V L)
    (h : ∀ x, vals = [x] → idxOf x.1 ≠ some 0 ∧ idxOf x.1 ≠ some 1) :
    ∀ e, (temporaries vals m).1 = [e] → idxOf e.base ≠ some 0 ∧ idxOf e.base ≠ some 1 := by
  intro e he
  rcases vals with _ | ⟨x, _ | ⟨y, vals⟩⟩
  · simp [temporaries] at he
  · simp only [temporaries, List.cons.injEq, and_true] at he
    have := h x rfl
    rw [← he]
    exact this
  · simp [temporaries] at he

/-- One call of `t >> f`. -/
theorem callWith_front [DecidableEq B] (Λ : Lang B V) (idxOf : B → Option Nat) (b : Bound B) (hd : b.dir = .front) (cat : Cat)
    (pf : PureFn V L R) (vals : List (B × V)) (m : Mem V L) (s : V) (vs : List V) (hok : b.ConstOk false)
    (hsep : b.Separate m.next) (hidx : ∀ x, vals = [x] → idxOf x.1 ≠ some 0 ∧ idxOf x.1 ≠ some 1)
    (hs : b.f.holds Λ m s) (hvs : HoldAll Λ m b.els vs) :
    ∃ m', b.callWith Λ idxOf pf.code cat vals m = .invoked (pf s (vs ++ vals.map (·.2)) m.world).1 m' ∧
      b.Separate m'.next ∧ m'.world = (pf s (vs ++ vals.map (·.2)) m.world).2.2.2 ∧
      b.f.holds Λ m' (b.f.updated false s (pf s (vs ++ vals.map (·.2)) m.world).2.1) ∧
      HoldAll Λ m' b.els (updateVals (b.tupleConst false) b.els vs (pf s (vs ++ vals.map (·.2)) m.world).2.2.1 0) := by
  obtain ⟨ga, -, -, -⟩ := temporaries_spec vals m
  obtain ⟨hmem, hap, hcap, -⟩ := temporaries_args vals m
  obtain ⟨sf, se, sfe, see⟩ := hsep.spec
  have hna := ga.next
  obtain ⟨fe, ts, as, m', g, hf, hts, has, hcall⟩ := call_front Λ idxOf b hd false cat (temporaries vals m).1
    (temporaries vals m).2 hok (lone_idx idxOf vals m hidx) (fun e he => (hmem e he).1) hap.xv
  have hn := g.next
  have hS : ∀ a, (∃ e ∈ (temporaries vals m).1, Moves e a) → m.next ≤ a := by
    rintro a ⟨e, he, h⟩
    have := (hmem e he).2.1
    have := h.1
    omega
  have hget : ∀ a < m.next, m'.get a = m.get a := by
    intro a ha
    rw [g.frame a (by omega) (fun h => by have := hS a h; omega), ga.frame a ha (by simp)]
  -- what the code reads
  have r1 : m'.get fe.addr = s := by
    rcases hbf : b.f with x | ⟨ty, a⟩
    · rw [hbf] at hf hs
      rw [hf.2.2.2.2.2.2]
      exact hs.symm
    · rw [hbf] at hf hs
      rw [hf]
      simp only
      rw [hget a (sf ty a hbf)]
      exact hs
  have r2 : (ts.map fun e => m'.get e.addr) = vs := by
    refine holdAll_map (S := fun a => ∃ e ∈ (temporaries vals m).1, Moves e a) g
      (hvs.frame fun i ty a hi => ga.frame a (se i ty a hi) (by simp)) hts ?_
    intro i ty a hi
    have := se i ty a hi
    exact ⟨by omega, fun h => by have := hS a h; omega⟩
  have r3 := hcap as m' has
  have r4 : m'.world = m.world := by rw [g.world, ga.world]
  have hcode : ∀ x, x = pf s (vs ++ vals.map (·.2)) m.world →
      (pf.code (B := B) fe (ts ++ as) m') = (x.1, { assignAll (ts ++ as) x.2.2.1 0
        (if fe.c then m' else m'.write fe.addr x.2.1) with world := x.2.2.2 }) := by
    rintro x rfl
    simp only [PureFn.code, List.map_append, r1, r2, r3, r4]
  generalize pf s (vs ++ vals.map (·.2)) m.world = x at hcode ⊢
  have hcode := hcode x rfl
  have hfe : ∀ a < m.next, (∀ ty, b.f ≠ .stored ty a) → fe.addr ≠ a := by
    intro a ha h
    rcases hbf : b.f with y | ⟨ty, a'⟩
    · rw [hbf] at hf
      have := hf.2.2.2.2.1
      omega
    · rw [hbf] at hf
      rw [hf]
      rintro rfl
      exact h ty hbf
  have key := elems_after Λ b.els vs (ts ++ as) x.2.2.1 0 m.next (b.tupleConst false)
      (if fe.c then m' else m'.write fe.addr x.2.1) (by
        intro i el hi
        obtain ⟨e, h1, h2⟩ := hts.2 i el hi
        refine ⟨e, ?_, ?_⟩
        · rw [Nat.zero_add, List.getElem?_append_left (List.getElem?_eq_some_iff.1 h1).1]
          exact h1
        · rcases el with y | ⟨ty, a⟩
          · have := h2.2.2.2.2.1
            simp only
            omega
          · rw [h2]
            exact ⟨rfl, rfl⟩) (by
        intro j e hj hr
        have hl : ts.length ≤ j := by have := hts.1; omega
        rw [List.getElem?_append_right hl] at hj
        have hjl : j - ts.length < (temporaries vals m).1.length := by
          have := (List.getElem?_eq_some_iff.1 hj).1
          have := has.1
          omega
        obtain ⟨e', h1, h2⟩ := has.2 (j - ts.length) _ (List.getElem?_eq_getElem hjl)
        rw [hj] at h1
        simp only [Option.some.injEq] at h1
        subst h1
        have hxv := (hmem _ (List.getElem_mem hjl)).2.2
        simp only [Captured, hxv] at h2
        have := h2.2.2.2.2.1
        omega) se see (by
        refine hvs.frame ?_
        intro i ty a hi
        have ha := se i ty a hi
        have hne := hfe a ha (fun ty' h => sfe i ty' a ty a h hi rfl)
        split
        · exact hget a ha
        · simp only [Mem.write, hne.symm, if_false]
          exact hget a ha)
  refine ⟨((pf.code fe (ts ++ as) m').2.killRange (temporaries vals m).2.next m'.next).killRange m.next
    (temporaries vals m).2.next, ?_, ?_, ?_, ?_, ?_⟩
  · simp only [Bound.callWith, hcall]
    rw [hcode]
  · refine hsep.mono ?_
    rw [hcode]
    show m.next ≤ (assignAll _ _ _ _).next
    rw [assignAll_next]
    split
    · omega
    · simp only [Mem.write]; omega
  · rw [hcode]; rfl
  · rcases hbf : b.f with y | ⟨ty, a⟩
    · rw [hbf] at hs; exact hs
    · rw [hbf] at hf hs
      have ha := sf ty a hbf
      simp only [Elem.holds, Elem.updated]
      rw [hcode]
      show (assignAll _ _ _ _).get a = _
      rw [key.2 a ha (fun i ty' a' hi => (sfe i ty a ty' a' hbf hi).symm), hf]
      cases hc : (ty.c || false)
      · simp [Mem.write]
      · simp only [if_true]
        rw [hget a ha]
        exact hs
  · refine key.1.frame ?_
    intro i ty a _
    rw [hcode]
    rfl

/-- One call of `t << f`. -/
theorem callWith_back [DecidableEq B] (Λ : Lang B V) (idxOf : B → Option Nat) (b : Bound B) (hd : b.dir = .back) (cat : Cat)
    (pf : PureFn V L R) (vals : List (B × V)) (m : Mem V L) (s : V) (vs : List V) (hok : b.ConstOk false)
    (hsep : b.Separate m.next) (hidx : ∀ x, vals = [x] → idxOf x.1 ≠ some 0 ∧ idxOf x.1 ≠ some 1)
    (hs : b.f.holds Λ m s) (hvs : HoldAll Λ m b.els vs) :
    ∃ m', b.callWith Λ idxOf pf.code cat vals m = .invoked (pf s (vals.map (·.2) ++ vs) m.world).1 m' ∧
      b.Separate m'.next ∧ m'.world = (pf s (vals.map (·.2) ++ vs) m.world).2.2.2 ∧
      b.f.holds Λ m' s ∧
      HoldAll Λ m' b.els (updateVals (b.tupleConst false) b.els vs (pf s (vals.map (·.2) ++ vs) m.world).2.2.1 vals.length) := by
  obtain ⟨ga, la, -, -⟩ := temporaries_spec vals m
  obtain ⟨hmem, hap, -, hcap⟩ := temporaries_args vals m
  obtain ⟨sf, se, sfe, see⟩ := hsep.spec
  have hna := ga.next
  obtain ⟨fe, ts, as, m', g, hf, hts, has, hcall⟩ := call_back Λ idxOf b hd false cat (temporaries vals m).1
    (temporaries vals m).2 hok (fun ty a h => by have := sf ty a h; omega) (lone_idx idxOf vals m hidx)
    (fun e he => (hmem e he).1) hap
  have hn := g.next
  have hS : ∀ a, (∃ e ∈ (temporaries vals m).1, Moves e a) → m.next ≤ a := by
    rintro a ⟨e, he, h⟩
    have := (hmem e he).2.1
    have := h.1
    omega
  have hget : ∀ a < m.next, m'.get a = m.get a := by
    intro a ha
    rw [g.frame a (by omega) (fun h => by have := hS a h; omega), ga.frame a ha (by simp)]
  obtain ⟨hf1, hf2, hf3, hf4, hf5, hf6⟩ := hf
  -- what the code reads
  have r1 : m'.get fe.addr = s := by
    rcases hbf : b.f with x | ⟨ty, a⟩
    · rw [hbf] at hf6 hs
      rw [hf6.2]
      exact hs.symm
    · rw [hbf] at hf6 hs
      rw [hf6.2, ga.frame a (sf ty a hbf) (by simp)]
      exact hs
  have r2 : (ts.map fun e => m'.get e.addr) = vs := by
    refine holdAll_map (S := fun a => ∃ e ∈ (temporaries vals m).1, Moves e a) g
      (hvs.frame fun i ty a hi => ga.frame a (se i ty a hi) (by simp)) hts ?_
    intro i ty a hi
    have := se i ty a hi
    exact ⟨by omega, fun h => by have := hS a h; omega⟩
  have r3 := hcap as m' has
  have r4 : m'.world = m.world := by rw [g.world, ga.world]
  have hcode : ∀ x, x = pf s (vals.map (·.2) ++ vs) m.world →
      (pf.code (B := B) fe (as ++ ts) m') = (x.1, { assignAll (as ++ ts) x.2.2.1 0
        (m'.write fe.addr x.2.1) with world := x.2.2.2 }) := by
    rintro x rfl
    simp only [PureFn.code, List.map_append, r1, r2, r3, r4, hf1, Bool.false_eq_true, if_false]
  generalize pf s (vals.map (·.2) ++ vs) m.world = x at hcode ⊢
  have hcode := hcode x rfl
  have hal : as.length = vals.length := by rw [has.1, la]
  have hM : ∀ a < m.next, (m'.write fe.addr x.2.1).get a = m.get a := by
    intro a ha
    have : a ≠ fe.addr := by omega
    simp only [Mem.write, this, if_false]
    exact hget a ha
  have key := elems_after Λ b.els vs (as ++ ts) x.2.2.1 vals.length m.next (b.tupleConst false)
      (m'.write fe.addr x.2.1) (by
        intro i el hi
        obtain ⟨e, h1, h2⟩ := hts.2 i el hi
        refine ⟨e, ?_, ?_⟩
        · rw [List.getElem?_append_right (by omega), hal, Nat.add_sub_cancel_left]
          exact h1
        · rcases el with y | ⟨ty, a⟩
          · have := h2.2.2.2.2.1
            simp only
            omega
          · rw [h2]
            exact ⟨rfl, rfl⟩) (by
        intro j e hj hr
        have hjlt := (List.getElem?_eq_some_iff.1 hj).1
        rw [List.length_append] at hjlt
        have hl : j < as.length := by have := hts.1; omega
        rw [List.getElem?_append_left hl] at hj
        have hjl : j < (temporaries vals m).1.length := by rw [la]; omega
        obtain ⟨e', h1, h2⟩ := has.2 j _ (List.getElem?_eq_getElem hjl)
        rw [hj] at h1
        simp only [Option.some.injEq] at h1
        subst h1
        have := h2.2.2.2.2.1
        omega) se see (hvs.frame fun i ty a hi => hM a (se i ty a hi))
  refine ⟨((pf.code fe (as ++ ts) m').2.killRange (temporaries vals m).2.next m'.next).killRange m.next
    (temporaries vals m).2.next, ?_, ?_, ?_, ?_, ?_⟩
  · simp only [Bound.callWith, hcall]
    rw [hcode]
  · refine hsep.mono ?_
    rw [hcode]
    show m.next ≤ (assignAll _ _ _ _).next
    rw [assignAll_next]
    simp only [Mem.write]; omega
  · rw [hcode]; rfl
  · rcases hbf : b.f with y | ⟨ty, a⟩
    · rw [hbf] at hs; exact hs
    · rw [hbf] at hs
      have ha := sf ty a hbf
      simp only [Elem.holds]
      rw [hcode]
      show (assignAll _ _ _ _).get a = _
      rw [key.2 a ha (fun i ty' a' hi => (sfe i ty a ty' a' hbf hi).symm), hM a ha]
      exact hs
  · refine key.1.frame ?_
    intro i ty a _
    rw [hcode]
    rfl

end Pigro.Cxx
