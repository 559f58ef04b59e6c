import Verif.Model.Bind
import Verif.Spec.Bind
import Verif.Proofs.CompressedTuple
/-!
# Lemmas about the binders
-/
namespace Pigro.Cxx
variable {B V L R : Type}

theorem Grows.refl (S : Nat → Prop) (m : Mem V L) : Grows S m m :=
  ⟨Nat.le_refl _, rfl, fun _ _ _ => rfl, fun _ _ => rfl, fun a h1 h2 => by omega⟩

theorem Grows.trans {S : Nat → Prop} {m m1 m2 : Mem V L} (h1 : Grows S m m1) (h2 : Grows S m1 m2) :
    Grows S m m2 := by
  have n1 := h1.next
  have n2 := h2.next
  refine ⟨Nat.le_trans n1 n2, h2.world.trans h1.world, ?_, ?_, ?_⟩
  · intro a ha hS
    rw [h2.frame a (by omega) hS, h1.frame a ha hS]
  · intro a ha
    rw [h2.aliveOld a (by omega), h1.aliveOld a ha]
  · intro a ha1 ha2
    by_cases h : a < m1.next
    · rw [h2.aliveOld a h, h1.aliveNew a ha1 h]
    · exact h2.aliveNew a (by omega) ha2

theorem Grows.mono {S T : Nat → Prop} {m m' : Mem V L} (h : Grows S m m') (hST : ∀ a, S a → T a) : Grows T m m' :=
  ⟨h.next, h.world, fun a ha hT => h.frame a ha (fun hS => hT (hST a hS)), h.aliveOld, h.aliveNew⟩

theorem Grows.alloc (S : Nat → Prop) (m : Mem V L) (x : V) : Grows S m (m.alloc x) := by
  refine ⟨by simp [Mem.alloc], rfl, ?_, ?_, ?_⟩
  · intro a ha _
    have : a ≠ m.next := by omega
    simp [Mem.alloc, this]
  · intro a ha
    have : a ≠ m.next := by omega
    simp [Mem.alloc, this]
  · intro a h1 h2
    simp only [Mem.alloc] at h2
    have : a = m.next := by omega
    simp [Mem.alloc, this]

theorem initFrom_grows (Λ : Lang B V) (e : Expr B) (m : Mem V L) (he : e.addr < m.next) :
    Grows (Moves e) m (Λ.initFrom e m) ∧ (Λ.initFrom e m).next = m.next + 1 ∧
    (Λ.initFrom e m).get m.next = m.get e.addr := by
  have hne : m.next ≠ e.addr := by omega
  have hA := Grows.alloc (Moves e) m (m.get e.addr)
  rcases hcat : e.cat with _ | _ <;> rcases hc : e.c with _ | _ <;>
    simp only [Lang.initFrom, hcat, hc] <;>
    first
    | exact ⟨⟨hA.next, hA.world, hA.frame, hA.aliveOld, hA.aliveNew⟩, rfl, by simp [Mem.alloc]⟩
    | refine ⟨⟨hA.next, hA.world, ?_, hA.aliveOld, hA.aliveNew⟩, rfl, by simp [Mem.alloc, Mem.write, hne]⟩
      intro a ha hS
      have h1 : a ≠ e.addr := fun h => hS ⟨h.symm, hcat, hc⟩
      have h2 : a ≠ m.next := by omega
      simp [Mem.alloc, Mem.write, h1, h2]

theorem fwdCapture_spec (Λ : Lang B V) (e : Expr B) (m : Mem V L) (he : e.addr < m.next) :
    Grows (Moves e) m (fwdCapture Λ e m).2 ∧ Captured m (fwdCapture Λ e m).2 e (fwdCapture Λ e m).1.accessLv := by
  have h := initFrom_grows Λ e m he
  rcases e with ⟨b, c, v, cat, addr⟩
  cases cat
  · exact ⟨Grows.refl _ _, rfl⟩
  · simp only [fwdCapture, deduceFwd]
    refine ⟨h.1, ?_⟩
    have := h.2
    simp only at this
    simp [Captured, Elem.accessLv, access, Expr.ofRef, Ty.addLref, this]

theorem captureAll_spec (Λ : Lang B V) (es : List (Expr B)) : ∀ (m : Mem V L), (∀ e ∈ es, e.addr < m.next) →
    XvApart es →
    let r := captureAll Λ es m
    Grows (fun a => ∃ e ∈ es, Moves e a) m r.2 ∧ r.1.length = es.length ∧
    ∀ (i : Nat) (e : Expr B), es[i]? = some e → ∃ e', (r.1.map Elem.accessLv)[i]? = some e' ∧ Captured m r.2 e e' := by
  induction es with
  | nil => intro m _ _; exact ⟨Grows.refl _ _, rfl, by simp⟩
  | cons e es ih =>
    intro m hlt hx
    rw [XvApart, List.pairwise_cons] at hx
    obtain ⟨g1, c1⟩ := fwdCapture_spec Λ e m (hlt e (by simp))
    have hn1 := g1.next
    obtain ⟨g2, l2, k2⟩ := ih (fwdCapture Λ e m).2 (fun e' h' => by have := hlt e' (by simp [h']); omega) hx.2
    have hn2 := g2.next
    refine ⟨(g1.mono fun a h => ⟨e, by simp, h⟩).trans (g2.mono fun a h => ?_), by simp [captureAll, l2], ?_⟩
    · obtain ⟨e', he', hm⟩ := h
      exact ⟨e', by simp [he'], hm⟩
    · intro i e' hi
      cases i with
      | zero =>
        simp only [List.getElem?_cons_zero, Option.some.injEq] at hi
        subst hi
        refine ⟨(fwdCapture Λ e m).1.accessLv, by simp [captureAll], ?_⟩
        simp only [Captured] at c1 ⊢
        rcases hcat : e.cat with _ | _ <;> simp only [hcat] at c1 ⊢
        · exact c1
        · obtain ⟨d1, d2, d3, d4, d5, d6, d7⟩ := c1
          refine ⟨d1, d2, d3, d4, d5, by simp only [captureAll]; omega, ?_⟩
          show (captureAll Λ es (fwdCapture Λ e m).2).2.get _ = _
          rw [← d7]
          apply g2.frame _ d6
          rintro ⟨e', he', hm⟩
          have := hlt e' (by simp [he'])
          have := hm.1
          omega
      | succ i =>
        simp only [List.getElem?_cons_succ] at hi
        obtain ⟨e'', h1, h2⟩ := k2 i e' hi
        refine ⟨e'', by simpa [captureAll] using h1, ?_⟩
        simp only [Captured] at h2 ⊢
        rcases hcat : e'.cat with _ | _ <;> simp only [hcat] at h2 ⊢
        · exact h2
        · obtain ⟨d1, d2, d3, d4, d5, d6, d7⟩ := h2
          refine ⟨d1, d2, d3, d4, by omega, d6, ?_⟩
          have hmem := List.mem_of_getElem? hi
          show (captureAll Λ es (fwdCapture Λ e m).2).2.get _ = _
          rw [d7]
          apply g1.frame _ (hlt e' (by simp [hmem]))
          rintro ⟨h1, h2, h3⟩
          exact hx.1 e' hmem h2 hcat h1

theorem decayAll_spec (Λ : Lang B V) (es : List (Expr B)) : ∀ (m : Mem V L), (∀ e ∈ es, e.addr < m.next) →
    Apart es →
    let r := decayAll Λ es m
    Grows (fun a => ∃ e ∈ es, Moves e a) m r.2 ∧ r.1.length = es.length ∧
    ∀ (i : Nat) (e : Expr B), es[i]? = some e → ∃ e', r.1[i]? = some e' ∧ Decayed m r.2 e e' := by
  induction es with
  | nil => intro m _ _; exact ⟨Grows.refl _ _, rfl, by simp⟩
  | cons e es ih =>
    intro m hlt hx
    rw [Apart, List.pairwise_cons] at hx
    obtain ⟨g1, n1, v1⟩ := initFrom_grows Λ e m (hlt e (by simp))
    obtain ⟨g2, l2, k2⟩ := ih (Λ.initFrom e m) (fun e' h' => by have := hlt e' (by simp [h']); omega) hx.2
    have hn2 := g2.next
    refine ⟨(g1.mono fun a h => ⟨e, by simp, h⟩).trans (g2.mono fun a h => ?_), by simp [decayAll, decayCopy, l2], ?_⟩
    · obtain ⟨e', he', hm⟩ := h
      exact ⟨e', by simp [he'], hm⟩
    · intro i e' hi
      cases i with
      | zero =>
        simp only [List.getElem?_cons_zero, Option.some.injEq] at hi
        subst hi
        refine ⟨⟨e.base, false, false, .xv, m.next⟩, by simp [decayAll, decayCopy], rfl, rfl, rfl, rfl, Nat.le_refl _, ?_, ?_⟩
        · simp only [decayAll, decayCopy]; omega
        · show (decayAll Λ es (Λ.initFrom e m)).2.get m.next = _
          rw [← v1]
          apply g2.frame _ (by omega)
          rintro ⟨e', he', hm⟩
          have := hlt e' (by simp [he'])
          have := hm.1
          omega
      | succ i =>
        simp only [List.getElem?_cons_succ] at hi
        obtain ⟨e'', h1, d1, d2, d3, d4, d5, d6, d7⟩ := k2 i e' hi
        refine ⟨e'', by simpa [decayAll, decayCopy] using h1, d1, d2, d3, d4, by omega, d6, ?_⟩
        have hmem := List.mem_of_getElem? hi
        show (decayAll Λ es (Λ.initFrom e m)).2.get _ = _
        rw [d7]
        apply g1.frame _ (hlt e' (by simp [hmem]))
        rintro ⟨h1, h2, h3⟩
        exact hx.1 e' hmem (.inl h2) h1

theorem materialise_get [DecidableEq B] (Λ : Lang B V) (el : Elem B) (c : Bool) (cat : Cat) (m : Mem V L)
    (hok : el.constOk c) :
    ∃ e m', materialise Λ (getSpec (some el) c cat) m = some (e, m') ∧ Grows (fun _ => False) m m' ∧
      SeenElem Λ m m' c cat el e := by
  rcases el with b | ⟨ty, addr⟩
  · refine ⟨_, _, rfl, Grows.alloc _ _ _, rfl, rfl, rfl, rfl, Nat.le_refl _, by simp [Mem.alloc], by simp [Mem.alloc]⟩
  · obtain ⟨a1, a2, a3⟩ := access_base ty addr false cat
    obtain ⟨a4, a5⟩ := access_cat ty addr cat
    cases c
    · refine ⟨_, m, rfl, Grows.refl _ _, a1, by simp [a4], a3, a2, fun _ => a5, by simp⟩
    · have hv : ty.v = false := hok rfl
      have : getSpec (some (Elem.stored ty addr)) true cat =
          .glvalue { access ty addr false cat with c := true, v := false, cat := cat } := by
        simp [getSpec, a3, hv]
      rw [this]
      refine ⟨_, m, rfl, Grows.refl _ _, a1, by simp, hv.symm, a2, by simp, by simp⟩

theorem SeenElem.later {Λ : Lang B V} {m m1 m2 : Mem V L} {c : Bool} {cat : Cat} {el : Elem B} {e : Expr B}
    (h : SeenElem Λ m m1 c cat el e) (S : Nat → Prop) (hS : ∀ a, S a → a < m.next) (hg : Grows S m1 m2) :
    SeenElem Λ m m2 c cat el e := by
  rcases el with b | ⟨ty, addr⟩
  · obtain ⟨h1, h2, h3, h4, h5, h6, h7⟩ := h
    have := hg.next
    refine ⟨h1, h2, h3, h4, h5, by omega, ?_⟩
    rw [hg.frame _ h6 (fun hs => by have := hS _ hs; omega), h7]
  · exact h

theorem SeenElem.earlier {Λ : Lang B V} {m0 m m1 : Mem V L} {c : Bool} {cat : Cat} {el : Elem B} {e : Expr B}
    (h : SeenElem Λ m m1 c cat el e) (hle : m0.next ≤ m.next) : SeenElem Λ m0 m1 c cat el e := by
  rcases el with b | ⟨ty, addr⟩
  · obtain ⟨h1, h2, h3, h4, h5, h6, h7⟩ := h
    exact ⟨h1, h2, h3, h4, by omega, h6, h7⟩
  · exact h

theorem getAll_from [DecidableEq B] (Λ : Lang B V) (els : List (Elem B)) (c : Bool) (cat : Cat)
    (hok : ∀ el ∈ els, el.constOk c) : ∀ (n k : Nat) (m : Mem V L), k + n = els.length →
    ∃ es m', getAll Λ (.compressed els) c cat (List.range' k n) m = some (es, m') ∧ es.length = n ∧
      Grows (fun _ => False) m m' ∧
      ∀ (i : Nat) (el : Elem B), els[k + i]? = some el → ∃ e, es[i]? = some e ∧ SeenElem Λ m m' c cat el e := by
  intro n
  induction n with
  | zero =>
    intro k m hk
    refine ⟨[], m, rfl, rfl, Grows.refl _ _, ?_⟩
    intro i el h
    have := (List.getElem?_eq_some_iff.1 h).1
    omega
  | succ n ih =>
    intro k m hk
    have hkl : k < els.length := by omega
    obtain ⟨e, m1, h1, g1, s1⟩ := materialise_get Λ els[k] c cat m (hok _ (by simp))
    obtain ⟨es, m2, h2, l2, g2, s2⟩ := ih (k + 1) m1 (by omega)
    refine ⟨e :: es, m2, ?_, by simp [l2], g1.trans g2, ?_⟩
    · rw [List.range'_succ, getAll]
      have : materialise Λ ((Tup.compressed els).get c cat k) m = some (e, m1) := by
        simp only [Tup.get]
        rw [get_eq]
        simpa [hkl] using h1
      simp [this, h2]
    · intro i el hi
      cases i with
      | zero =>
        simp only [Nat.add_zero] at hi
        have : els[k] = el := by simpa [hkl] using hi
        subst this
        exact ⟨e, by simp, s1.later _ (by simp) g2⟩
      | succ i =>
        obtain ⟨e', h3, h4⟩ := s2 i el (by rw [← hi]; congr 1; omega)
        exact ⟨e', by simpa using h3, h4.earlier g1.next⟩

theorem getAll_spec [DecidableEq B] (Λ : Lang B V) (els : List (Elem B)) (c : Bool) (cat : Cat) (m : Mem V L)
    (hok : ∀ el ∈ els, el.constOk c) :
    ∃ es m', getAll Λ (.compressed els) c cat (List.range els.length) m = some (es, m') ∧ es.length = els.length ∧
      Grows (fun _ => False) m m' ∧
      ∀ (i : Nat) (el : Elem B), els[i]? = some el → ∃ e, es[i]? = some e ∧ SeenElem Λ m m' c cat el e := by
  obtain ⟨es, m', h1, h2, h3, h4⟩ := getAll_from Λ els c cat hok els.length 0 m (by omega)
  rw [← List.range_eq_range'] at h1
  exact ⟨es, m', h1, h2, h3, by simpa using h4⟩

/-! ### Overload resolution -/

theorem pickLam_append_generic [DecidableEq B] (ls : List (Lam B)) (I : Nat) (k : Bool) :
    pickLam (ls ++ [.generic]) (some I) false k = pickLam ls (some I) false k := by
  have : (ls ++ [Lam.generic]).filter (Lam.viable (some I) false k) = ls.filter (Lam.viable (some I) false k) := by
    rw [List.filter_append]
    simp [List.filter, Lam.viable]
  simp only [pickLam, Ovl.callOverload, Ovl.resolve, this]

theorem callIdx_append_generic [DecidableEq B] (ls : List (Lam B)) (I : Nat) : ∀ (fuel : Nat) (o : Expr Unit),
    callIdx (ls ++ [.generic]) I fuel o = callIdx ls I fuel o := by
  intro fuel
  induction fuel with
  | zero => intro o; rfl
  | succ fuel ih =>
    intro o
    simp only [callIdx, pickLam_append_generic, ih]

theorem bound_idx [DecidableEq B] (b : Bound B) (c : Bool) :
    callIdx b.lams 0 2 (tupleExpr c .lv) = getSpec (some b.f) c .lv ∧
    callIdx b.lams 1 2 (tupleExpr c .lv) = getSpec (some b.t) c .lv := by
  have h : ∀ I, callIdx b.lams I 2 (tupleExpr c .lv) = getSpec [b.f, b.t][I]? c .lv := by
    intro I
    rw [Bound.lams, callIdx_append_generic, ← get_eq]
    rfl
  exact ⟨h 0, h 1⟩

theorem pick_generic [DecidableEq B] (b : Bound B) (index : Option Nat) (h0 : index ≠ some 0) (h1 : index ≠ some 1)
    (k : Bool) : pickLam b.lams index true k = .pick .generic := by
  have hf : b.lams.filter (Lam.viable index true k) = [.generic] := by
    have e : ∀ (el : Elem B) (tag : Nat), index ≠ some tag → (el.lams tag).filter (Lam.viable index true k) = [] := by
      intro el tag h
      cases el <;> simp [Elem.lams, List.filter, Lam.viable, h]
    rw [Bound.lams, List.filter_append]
    simp only [lams, List.zipIdx_cons, List.zipIdx_nil, List.flatMap_cons, List.flatMap_nil, List.append_nil,
      List.filter_append, Nat.zero_add, e _ 0 h0, e _ 1 h1, List.nil_append]
    simp [List.filter, Lam.viable]
  simp [pickLam, Ovl.callOverload, Ovl.resolve, hf, Ovl.isBest, List.filter]

theorem bound_select [DecidableEq B] (b : Bound B) (index : Option Nat) (h0 : index ≠ some 0) (h1 : index ≠ some 1)
    (c : Bool) (cat : Cat) :
    recursiveCall (fun callee (_ : Expr Unit) => b.accepts index callee.c) (tupleExpr c cat) =
      some (tupleExpr c cat, tupleExpr c cat) := by
  rw [C36_selection]
  simp only [Bound.accepts, pick_generic b index h0 h1]
  cases c <;> cases cat <;> simp [tupleExpr, passes]

theorem loneIndex_ne (idxOf : B → Option Nat) (args : List (Expr B))
    (h : ∀ e, args = [e] → idxOf e.base ≠ some 0 ∧ idxOf e.base ≠ some 1) :
    loneIndex idxOf args ≠ some 0 ∧ loneIndex idxOf args ≠ some 1 := by
  rcases args with _ | ⟨e, _ | ⟨e', es⟩⟩
  · simp [loneIndex]
  · exact h e rfl
  · simp [loneIndex]

/-! ### Calls -/

theorem Mem.killRange_self (m : Mem V L) (a : Nat) : m.killRange a a = m := by
  have : (fun x => m.alive x && !(decide (a ≤ x) && decide (x < a))) = m.alive := by
    funext x
    by_cases h : a ≤ x
    · have h' : ¬ x < a := by omega
      simp [h']
    · simp [h]
  simp only [Mem.killRange, this]

theorem killRange_killRange (m : Mem V L) (a b c : Nat) (h1 : a ≤ b) (h2 : b ≤ c) :
    (m.killRange b c).killRange a b = m.killRange a c := by
  simp only [Mem.killRange]
  congr 1
  funext x
  by_cases hx1 : a ≤ x <;> by_cases hx2 : x < b <;> by_cases hx3 : b ≤ x <;> by_cases hx4 : x < c <;>
    simp [hx1, hx2, hx3, hx4] <;> omega

/-- The two local variables of the generic lambda. -/
theorem bound_locals [DecidableEq B] (Λ : Lang B V) (b : Bound B) (c : Bool) (cat : Cat) (m : Mem V L) (hok : b.ConstOk c) :
    ∃ f t m1 m2, bindLocal Λ (callIdx b.lams 0 2 (tupleExpr c cat).named) m = some (f, m1) ∧
      bindLocal Λ (callIdx b.lams 1 2 (tupleExpr c cat).named) m1 = some (t, m2) ∧
      Grows (fun _ => False) m m1 ∧ Grows (fun _ => False) m1 m2 ∧ CalleeRef Λ m m1 c b.f f ∧
      t.c = b.tupleConst c := by
  have hn : (tupleExpr c cat).named = tupleExpr c .lv := rfl
  rw [hn, (bound_idx b c).1, (bound_idx b c).2]
  obtain ⟨f, m1, h1, g1, s1⟩ := materialise_get Λ b.f c .lv m hok.1
  obtain ⟨t, m2, h2, g2, s2⟩ := materialise_get Λ b.t c .lv m1 hok.2.1
  refine ⟨f.named, t.named, m1, m2, by simp [bindLocal, h1], by simp [bindLocal, h2], g1, g2, ?_, ?_⟩
  · rcases hf : b.f with x | ⟨ty, addr⟩
    · rw [hf] at s1
      obtain ⟨k1, k2, k3, k4, k5, k6, k7⟩ := s1
      exact ⟨k1, k2, k3, rfl, k5, k6, k7⟩
    · rw [hf] at s1
      obtain ⟨k1, k2, k3, k4, -⟩ := s1
      rcases f with ⟨x1, x2, x3, x4, x5⟩
      simp only at k1 k2 k3 k4
      simp [CalleeRef, Expr.named, k1, k2, k3, k4]
  · rcases ht : b.t with x | ⟨ty, addr⟩
    · rw [ht] at s2
      simp [Bound.tupleConst, ht, Expr.named, s2.2.1]
    · rw [ht] at s2
      simp [Bound.tupleConst, ht, Expr.named, s2.2.1]

theorem SeenElem.passed {Λ : Lang B V} {m m' : Mem V L} {c : Bool} {el : Elem B} {e : Expr B}
    (h : SeenElem Λ m m' c .lv el e) : PassedElem Λ m m' c el e := by
  rcases el with b | ⟨ty, addr⟩
  · exact h
  · obtain ⟨h1, h2, h3, h4, h5, h6⟩ := h
    rcases e with ⟨x1, x2, x3, x4, x5⟩
    simp only at h1 h2 h3 h4 h5 h6
    have : x4 = .lv := by
      cases c
      · rw [h5 rfl]; split <;> rfl
      · exact h6 rfl
    simp [PassedElem, h1, h2, h3, h4, this]

theorem CalleeRef.later {Λ : Lang B V} {m m1 m2 : Mem V L} {c : Bool} {el : Elem B} {e : Expr B}
    (h : CalleeRef Λ m m1 c el e) (S : Nat → Prop) (hS : ∀ a, S a → a < m.next) (hg : Grows S m1 m2) :
    CalleeRef Λ m m2 c el e := by
  rcases el with b | ⟨ty, addr⟩
  · obtain ⟨h1, h2, h3, h4, h5, h6, h7⟩ := h
    have := hg.next
    refine ⟨h1, h2, h3, h4, h5, by omega, ?_⟩
    rw [hg.frame _ h6 (fun hs => by have := hS _ hs; omega), h7]
  · exact h

theorem Captured.later {m m1 m2 : Mem V L} {e e' : Expr B} (h : Captured m m1 e e') (hg : Grows (fun _ => False) m1 m2) :
    Captured m m2 e e' := by
  simp only [Captured] at h ⊢
  rcases hc : e.cat with _ | _ <;> simp only [hc] at h ⊢
  · exact h
  · obtain ⟨d1, d2, d3, d4, d5, d6, d7⟩ := h
    have := hg.next
    exact ⟨d1, d2, d3, d4, d5, by omega, by rw [hg.frame _ d6 (by simp), d7]⟩

theorem Captured.earlier {m0 m m1 : Mem V L} {e e' : Expr B} (h : Captured m m1 e e') (hg : Grows (fun _ => False) m0 m)
    (he : e.addr < m0.next) : Captured m0 m1 e e' := by
  simp only [Captured] at h ⊢
  rcases hc : e.cat with _ | _ <;> simp only [hc] at h ⊢
  · exact h
  · obtain ⟨d1, d2, d3, d4, d5, d6, d7⟩ := h
    have := hg.next
    exact ⟨d1, d2, d3, d4, by omega, d6, by rw [d7, hg.frame _ he (by simp)]⟩

theorem Decayed.later {m m1 m2 : Mem V L} {e e' : Expr B} (h : Decayed m m1 e e') (hg : Grows (fun _ => False) m1 m2) :
    Decayed m m2 e e' := by
  obtain ⟨d1, d2, d3, d4, d5, d6, d7⟩ := h
  have := hg.next
  exact ⟨d1, d2, d3, d4, d5, by omega, by rw [hg.frame _ d6 (by simp), d7]⟩

theorem fwdCapture_lv (Λ : Lang B V) (e : Expr B) (m : Mem V L) (h : e.cat = .lv) :
    (fwdCapture Λ e m).2 = m ∧ (fwdCapture Λ e m).1.accessLv = e := by
  rcases e with ⟨b, c, v, cat, addr⟩
  simp only at h
  subst h
  exact ⟨rfl, rfl⟩

theorem fwdCapture_addr (Λ : Lang B V) (e : Expr B) (m : Mem V L) :
    ((fwdCapture Λ e m).1.accessLv.addr = e.addr ∧ (fwdCapture Λ e m).2 = m) ∨
    ((fwdCapture Λ e m).1.accessLv.addr = m.next ∧ m.next < (fwdCapture Λ e m).2.next) := by
  rcases e with ⟨b, c, v, cat, addr⟩
  cases cat
  · exact .inl ⟨rfl, rfl⟩
  · refine .inr ⟨rfl, ?_⟩
    show m.next < (Λ.initFrom _ m).next
    simp only [Lang.initFrom]
    split <;> simp [Mem.alloc, Mem.write]

theorem captureAll_fresh (Λ : Lang B V) (N : Nat) : ∀ (es : List (Expr B)) (m : Mem V L), N ≤ m.next → (∀ e ∈ es, e.addr < N) →
    (((captureAll Λ es m).1.map Elem.accessLv).Pairwise fun x y => N ≤ x.addr → N ≤ y.addr → x.addr < y.addr) ∧
    ∀ e ∈ (captureAll Λ es m).1.map Elem.accessLv, e.addr < N ∨ m.next ≤ e.addr
  | [], _, _, _ => ⟨.nil, by simp [captureAll]⟩
  | e :: es, m, hN, h => by
    have he := h e (by simp)
    have ha := fwdCapture_addr Λ e m
    have hN' : N ≤ (fwdCapture Λ e m).2.next := by
      rcases ha with ⟨-, h⟩ | ⟨-, h⟩
      · rw [h]; exact hN
      · omega
    obtain ⟨h1, h2⟩ := captureAll_fresh Λ N es (fwdCapture Λ e m).2 hN' (fun e' h' => h e' (by simp [h']))
    simp only [captureAll, List.map_cons, List.pairwise_cons]
    refine ⟨⟨?_, h1⟩, ?_⟩
    · intro y hy hx hy'
      have := h2 y hy
      rcases ha with ⟨h, h'⟩ | ⟨h, h'⟩
      · omega
      · omega
    · intro y hy
      rcases List.mem_cons.1 hy with rfl | hy
      · rcases ha with ⟨h, h'⟩ | ⟨h, h'⟩
        · exact .inl (by omega)
        · exact .inr (by omega)
      · have := h2 y hy
        rcases ha with ⟨h, h'⟩ | ⟨h, h'⟩
        · rw [h'] at this; exact this
        · omega

/-- Those of the objects that are new are different, and have addresses from `lo` to below `hi`. -/
def NewIn (N lo hi : Nat) (es : List (Expr B)) : Prop :=
  NewApart N es ∧ ∀ e ∈ es, e.addr < N ∨ (lo ≤ e.addr ∧ e.addr < hi)

theorem NewIn.append {N a b c d : Nat} {es es' : List (Expr B)} (h : NewIn N a b es) (h' : NewIn N c d es') (hb : b ≤ c) (hab : a ≤ b)
    (hcd : c ≤ d) : NewIn N a d (es ++ es') ∧ NewIn N a d (es' ++ es) := by
  refine ⟨⟨?_, ?_⟩, ⟨?_, ?_⟩⟩
  · rw [NewApart, List.pairwise_append]
    refine ⟨h.1, h'.1, ?_⟩
    intro x hx y hy h1 h2
    have := h.2 x hx
    have := h'.2 y hy
    omega
  · intro e he
    rcases List.mem_append.1 he with he | he
    · have := h.2 e he; omega
    · have := h'.2 e he; omega
  · rw [NewApart, List.pairwise_append]
    refine ⟨h'.1, h.1, ?_⟩
    intro x hx y hy h1 h2
    have := h.2 y hy
    have := h'.2 x hx
    omega
  · intro e he
    rcases List.mem_append.1 he with he | he
    · have := h'.2 e he; omega
    · have := h.2 e he; omega

theorem NewIn.singleton {N lo hi : Nat} {e : Expr B} (h : e.addr < N ∨ (lo ≤ e.addr ∧ e.addr < hi)) : NewIn N lo hi [e] :=
  ⟨by simp [NewApart], by simpa using h⟩

theorem fwdCapture_next (Λ : Lang B V) (e : Expr B) (m : Mem V L) :
    ((fwdCapture Λ e m).1.accessLv.addr = e.addr ∧ (fwdCapture Λ e m).2.next = m.next) ∨
    ((fwdCapture Λ e m).1.accessLv.addr = m.next ∧ (fwdCapture Λ e m).2.next = m.next + 1) := by
  rcases e with ⟨b, c, v, cat, addr⟩
  cases cat
  · exact .inl ⟨rfl, rfl⟩
  · refine .inr ⟨rfl, ?_⟩
    show (Λ.initFrom _ m).next = _
    simp only [Lang.initFrom]
    split <;> simp [Mem.alloc, Mem.write]

theorem captureAll_new (Λ : Lang B V) (N : Nat) : ∀ (es : List (Expr B)) (m : Mem V L), N ≤ m.next → (∀ e ∈ es, e.addr < N) →
    NewIn N m.next (captureAll Λ es m).2.next ((captureAll Λ es m).1.map Elem.accessLv) ∧ m.next ≤ (captureAll Λ es m).2.next
  | [], m, _, _ => ⟨⟨.nil, by simp [captureAll]⟩, Nat.le_refl _⟩
  | e :: es, m, hN, h => by
    have he := h e (by simp)
    have ha := fwdCapture_next Λ e m
    obtain ⟨h1, h2⟩ := captureAll_new Λ N es (fwdCapture Λ e m).2 (by omega) (fun e' h' => h e' (by simp [h']))
    simp only [captureAll, List.map_cons]
    refine ⟨?_, by omega⟩
    exact ((NewIn.singleton (N := N) (lo := m.next) (hi := (fwdCapture Λ e m).2.next) (e := (fwdCapture Λ e m).1.accessLv) (by omega)).append
      h1 (Nat.le_refl _) (by omega) h2).1

theorem decayAll_new (Λ : Lang B V) (N : Nat) : ∀ (es : List (Expr B)) (m : Mem V L), N ≤ m.next →
    NewIn N m.next (decayAll Λ es m).2.next (decayAll Λ es m).1 ∧ m.next ≤ (decayAll Λ es m).2.next
  | [], m, _ => ⟨⟨.nil, by simp [decayAll]⟩, Nat.le_refl _⟩
  | e :: es, m, hN => by
    have hn : (Λ.initFrom e m).next = m.next + 1 := by
      simp only [Lang.initFrom]
      split <;> simp [Mem.alloc, Mem.write]
    obtain ⟨h1, h2⟩ := decayAll_new Λ N es (Λ.initFrom e m) (by omega)
    simp only [decayAll, decayCopy]
    refine ⟨?_, by omega⟩
    exact ((NewIn.singleton (N := N) (lo := m.next) (hi := (Λ.initFrom e m).next) (e := ⟨e.base, false, false, .xv, m.next⟩)
      (by simp only; omega)).append h1 (Nat.le_refl _) (by omega) h2).1

theorem getAll_new [DecidableEq B] (Λ : Lang B V) (els : List (Elem B)) (N : Nat) (hr : ∀ el ∈ els, ∀ ty a, el = .stored ty a → a < N)
    (c : Bool) (cat : Cat) : ∀ (is : List Nat) (m : Mem V L) (es : List (Expr B)) (m' : Mem V L), N ≤ m.next →
      getAll Λ (.compressed els) c cat is m = some (es, m') → NewIn N m.next m'.next es ∧ m.next ≤ m'.next
  | [], m, es, m', hN, he => by
    simp only [getAll, Option.some.injEq, Prod.mk.injEq] at he
    rw [← he.1, ← he.2]
    exact ⟨⟨.nil, by simp⟩, Nat.le_refl _⟩
  | i :: is, m, es, m', hN, he => by
    rw [getAll] at he
    simp only [Tup.get, get_eq] at he
    split at he
    · simp at he
    · rename_i e m1 h1
      split at he
      · simp at he
      · rename_i es' m2 h2
        simp only [Option.some.injEq, Prod.mk.injEq] at he
        obtain ⟨rfl, rfl⟩ := he
        have hm : (e.addr < N ∧ m1.next = m.next) ∨ (e.addr = m.next ∧ m1.next = m.next + 1) := by
          rcases hi : els[i]? with _ | x | ⟨ty, a⟩
          · rw [hi] at h1; simp [getSpec, materialise] at h1
          · rw [hi] at h1
            simp only [getSpec, materialise, Option.some.injEq, Prod.mk.injEq] at h1
            rw [← h1.1, ← h1.2]
            exact .inr ⟨rfl, rfl⟩
          · rw [hi] at h1
            have ha := hr _ (List.mem_of_getElem? hi) ty a rfl
            have hb := (access_base ty a false cat).2.1
            simp only [getSpec] at h1
            split at h1
            · split at h1
              · simp [materialise] at h1
              · simp only [materialise, Option.some.injEq, Prod.mk.injEq] at h1
                rw [← h1.1, ← h1.2]
                exact .inl ⟨by simp only; omega, rfl⟩
            · simp only [materialise, Option.some.injEq, Prod.mk.injEq] at h1
              rw [← h1.1, ← h1.2]
              exact .inl ⟨by omega, rfl⟩
        obtain ⟨k1, k2⟩ := getAll_new Λ els N hr c cat is m1 es' m2 (by omega) h2
        refine ⟨?_, by omega⟩
        exact ((NewIn.singleton (N := N) (lo := m.next) (hi := m1.next) (e := e) (by omega)).append k1 (Nat.le_refl _) (by omega) k2).1

/-- A stored element (not one of empty type). -/
def Elem.IsStored (el : Elem B) : Prop := ∃ ty addr, el = .stored ty addr

theorem materialise_stored [DecidableEq B] (Λ : Lang B V) (el : Elem B) (h : el.IsStored) (c : Bool) (cat : Cat) (m : Mem V L)
    (e : Expr B) (m' : Mem V L) (he : materialise Λ (getSpec (some el) c cat) m = some (e, m')) : m' = m := by
  obtain ⟨ty, addr, rfl⟩ := h
  simp only [getSpec] at he
  split at he
  · split at he
    · simp [materialise] at he
    · simp only [materialise, Option.some.injEq, Prod.mk.injEq] at he
      exact he.2.symm
  · simp only [materialise, Option.some.injEq, Prod.mk.injEq] at he
    exact he.2.symm

theorem getAll_stored [DecidableEq B] (Λ : Lang B V) (els : List (Elem B)) (h : ∀ el ∈ els, el.IsStored) (c : Bool) (cat : Cat) :
    ∀ (is : List Nat) (m : Mem V L) (es : List (Expr B)) (m' : Mem V L),
      getAll Λ (.compressed els) c cat is m = some (es, m') → m' = m
  | [], m, es, m', he => by simp only [getAll, Option.some.injEq, Prod.mk.injEq] at he; exact he.2.symm
  | i :: is, m, es, m', he => by
    rw [getAll] at he
    simp only [Tup.get, get_eq] at he
    rcases hi : els[i]? with _ | el
    · rw [hi] at he; simp [getSpec, materialise] at he
    · rw [hi] at he
      split at he
      · simp at he
      · rename_i h1
        have := materialise_stored Λ el (h el (List.mem_of_getElem? hi)) c cat m _ _ h1
        split at he
        · simp at he
        · rename_i h2
          simp only [Option.some.injEq, Prod.mk.injEq] at he
          rw [← he.2, getAll_stored Λ els h c cat is _ _ _ h2, this]

theorem captureAll_lv (Λ : Lang B V) : ∀ (es : List (Expr B)) (m : Mem V L), (∀ e ∈ es, e.cat = .lv) → (captureAll Λ es m).2 = m
  | [], m, _ => rfl
  | e :: es, m, h => by
    simp only [captureAll]
    rw [(fwdCapture_lv Λ e m (h e (by simp))).1]
    exact captureAll_lv Λ es m fun e' h' => h e' (by simp [h'])

/-- A call of `t >> f`, with what the code of `f` gets. -/
theorem call_front_exact [DecidableEq B] (Λ : Lang B V) (idxOf : B → Option Nat) (b : Bound B) (hd : b.dir = .front) (c : Bool)
    (cat : Cat) (args : List (Expr B)) (m : Mem V L) (hok : b.ConstOk c)
    (hidx : ∀ e, args = [e] → idxOf e.base ≠ some 0 ∧ idxOf e.base ≠ some 1)
    (hlt : ∀ e ∈ args, e.addr < m.next) (hx : XvApart args) :
    ∃ fe ts as m', (b.f.IsStored → b.t.IsStored → (∀ el ∈ b.els, el.IsStored) → (∀ e ∈ args, e.cat = .lv) → m' = m) ∧
      (b.InRangeAll m.next → NewApart m.next (fe :: (ts ++ as))) ∧ Grows (fun a => ∃ e ∈ args, Moves e a) m m' ∧ CalleeRef Λ m m' c b.f fe ∧
      Pairs (PassedElem Λ m m' (b.tupleConst c)) b.els ts ∧ Pairs (Captured m m') args as ∧
      ∀ (R : Type) (code : Code B V L R), b.call Λ idxOf code c cat args m =
        .invoked (code fe (ts ++ as) m').1 ((code fe (ts ++ as) m').2.killRange m.next m'.next) := by
  obtain ⟨h0, h1⟩ := loneIndex_ne idxOf args hidx
  obtain ⟨f, t, m1, m2, l1, l2, g1, g2, hf, ht⟩ := bound_locals Λ b c cat m hok
  have hflv : f.cat = .lv := by
    rcases hbf : b.f with x | ⟨ty, addr⟩
    · rw [hbf] at hf; exact hf.2.2.2.1
    · rw [hbf] at hf; rw [hf]
  obtain ⟨f1, f2⟩ := fwdCapture_lv Λ f m2 hflv
  have g12 := g1.trans g2
  have n12 := g12.next
  obtain ⟨g3, n3, k3⟩ := captureAll_spec Λ args m2 (fun e he => by have := hlt e he; omega) hx
  obtain ⟨ts, m4, a4, n4, g4, k4⟩ := getAll_spec Λ b.els t.c .lv (captureAll Λ args m2).2 (by rw [ht]; exact hok.2.2)
  have hS : ∀ a, (∃ e ∈ args, Moves e a) → a < m.next := by
    rintro a ⟨e, he, hm⟩
    have := hlt e he
    have := hm.1
    omega
  have hn3 := g3.next
  have hn4 := g4.next
  refine ⟨f, ts, (captureAll Λ args m2).1.map Elem.accessLv, m4, ?_, ?_, ?_, ?_, ?_, ?_, ?_⟩
  · intro sf st se sa
    rw [getAll_stored Λ b.els se t.c .lv _ _ _ _ a4, captureAll_lv Λ args m2 sa]
    have hn : (tupleExpr c cat).named = tupleExpr c .lv := rfl
    rw [hn, (bound_idx b c).1] at l1
    rw [hn, (bound_idx b c).2] at l2
    simp only [bindLocal, Option.map_eq_some_iff] at l1 l2
    obtain ⟨⟨e1, q1⟩, l1, l1'⟩ := l1
    obtain ⟨⟨e2, q2⟩, l2, l2'⟩ := l2
    simp only [Prod.mk.injEq] at l1' l2'
    rw [← l2'.2, materialise_stored Λ b.t st c .lv _ _ _ l2, ← l1'.2, materialise_stored Λ b.f sf c .lv _ _ _ l1]
  · intro hr
    have c1 := captureAll_new Λ m.next args m2 n12 hlt
    have c2 := getAll_new Λ b.els m.next (fun el hel => hr el (by simp [hel])) t.c .lv _ _ _ _ (by omega) a4
    have c3 : NewIn m.next m.next m1.next [f] := NewIn.singleton (by
      rcases hbf : b.f with x | ⟨ty, addr⟩
      · rw [hbf] at hf; exact .inr ⟨hf.2.2.2.2.1, hf.2.2.2.2.2.1⟩
      · rw [hbf] at hf; rw [hf]; exact .inl (hr b.f (by simp) ty addr hbf))
    have n1 := g1.next
    have n2 := g2.next
    exact (c3.append (c1.1.append c2.1 (Nat.le_refl _) c1.2 c2.2).2 n2 n1 (by omega)).1.1
  · exact ((g12.mono (by simp)).trans g3).trans (g4.mono (by simp))
  · exact ((hf.later _ (by simp) g2).later _ hS g3).later _ (by simp) g4
  · refine ⟨n4, ?_⟩
    intro i el hi
    obtain ⟨e, q1, q2⟩ := k4 i el hi
    rw [ht] at q2
    exact ⟨e, q1, (q2.earlier (by omega)).passed⟩
  · refine ⟨by simpa using n3, ?_⟩
    intro i e hi
    obtain ⟨e', q1, q2⟩ := k3 i e hi
    exact ⟨e', q1, (q2.earlier g12 (hlt e (List.mem_of_getElem? hi))).later g4⟩
  · intro R code
    simp only [Bound.call]
    rw [bound_select b _ h0 h1]
    simp only
    rw [pick_generic b _ h0 h1]
    simp only
    rw [Bound.body, l1]
    simp only
    rw [l2]
    simp only [hd, bindBack, f1, apply, Tup.size, applyImpl, a4, BackBinder.call, f2, Option.map_some]
    rw [killRange_killRange _ _ _ _ (by omega) hn4]

/-- A call of `t >> f`, with what the code of `f` gets. -/
theorem call_front [DecidableEq B] (Λ : Lang B V) (idxOf : B → Option Nat) (b : Bound B) (hd : b.dir = .front) (c : Bool)
    (cat : Cat) (args : List (Expr B)) (m : Mem V L) (hok : b.ConstOk c)
    (hidx : ∀ e, args = [e] → idxOf e.base ≠ some 0 ∧ idxOf e.base ≠ some 1)
    (hlt : ∀ e ∈ args, e.addr < m.next) (hx : XvApart args) :
    ∃ fe ts as m', Grows (fun a => ∃ e ∈ args, Moves e a) m m' ∧ CalleeRef Λ m m' c b.f fe ∧
      Pairs (PassedElem Λ m m' (b.tupleConst c)) b.els ts ∧ Pairs (Captured m m') args as ∧
      ∀ (R : Type) (code : Code B V L R), b.call Λ idxOf code c cat args m =
        .invoked (code fe (ts ++ as) m').1 ((code fe (ts ++ as) m').2.killRange m.next m'.next) := by
  obtain ⟨fe, ts, as, m', -, -, h⟩ := call_front_exact Λ idxOf b hd c cat args m hok hidx hlt hx
  exact ⟨fe, ts, as, m', h⟩

/-- A call of `t << f`, with what the code of `f` gets. -/
theorem call_back_exact [DecidableEq B] (Λ : Lang B V) (idxOf : B → Option Nat) (b : Bound B) (hd : b.dir = .back) (c : Bool)
    (cat : Cat) (args : List (Expr B)) (m : Mem V L) (hok : b.ConstOk c) (hr : b.InRange m.next)
    (hidx : ∀ e, args = [e] → idxOf e.base ≠ some 0 ∧ idxOf e.base ≠ some 1)
    (hlt : ∀ e ∈ args, e.addr < m.next) (hx : Apart args) :
    ∃ fe ts as m', (b.InRangeAll m.next → NewApart m.next (fe :: (as ++ ts))) ∧ Grows (fun a => ∃ e ∈ args, Moves e a) m m' ∧ CalleeCopy Λ m m' b.f fe ∧
      Pairs (PassedElem Λ m m' (b.tupleConst c)) b.els ts ∧ Pairs (Decayed m m') args as ∧
      ∀ (R : Type) (code : Code B V L R), b.call Λ idxOf code c cat args m =
        .invoked (code fe (as ++ ts) m').1 ((code fe (as ++ ts) m').2.killRange m.next m'.next) := by
  obtain ⟨h0, h1⟩ := loneIndex_ne idxOf args hidx
  obtain ⟨f, t, m1, m2, l1, l2, g1, g2, hf, ht⟩ := bound_locals Λ b c cat m hok
  have g12 := g1.trans g2
  have n12 := g12.next
  have hflt : f.addr < m2.next := by
    rcases hbf : b.f with x | ⟨ty, addr⟩
    · rw [hbf] at hf
      have := hf.2.2.2.2.2.1
      have := g2.next
      omega
    · rw [hbf] at hf; rw [hf]
      have := hr ty addr hbf
      simp only
      omega
  have hflv : f.cat = .lv := by
    rcases hbf : b.f with x | ⟨ty, addr⟩
    · rw [hbf] at hf; exact hf.2.2.2.1
    · rw [hbf] at hf; rw [hf]
  obtain ⟨gf, nf, vf⟩ := initFrom_grows Λ f m2 hflt
  have gf' : Grows (fun _ => False) m2 (Λ.initFrom f m2) := gf.mono (by
    rintro a ⟨-, h, -⟩; rw [hflv] at h; simp at h)
  obtain ⟨g3, n3, k3⟩ := decayAll_spec Λ args (Λ.initFrom f m2) (fun e he => by have := hlt e he; omega) hx
  obtain ⟨ts, m4, a4, n4, g4, k4⟩ := getAll_spec Λ b.els t.c .lv (decayAll Λ args (Λ.initFrom f m2)).2
    (by rw [ht]; exact hok.2.2)
  have hS : ∀ a, (∃ e ∈ args, Moves e a) → a < m.next := by
    rintro a ⟨e, he, hm⟩
    have := hlt e he
    have := hm.1
    omega
  have hn3 := g3.next
  have hn4 := g4.next
  have g123 := g12.trans gf'
  refine ⟨⟨f.base, false, false, .xv, m2.next⟩, ts, (decayAll Λ args (Λ.initFrom f m2)).1, m4, ?_, ?_, ?_, ?_, ?_, ?_⟩
  · intro hr
    have c1 := decayAll_new Λ m.next args (Λ.initFrom f m2) (by omega)
    have c2 := getAll_new Λ b.els m.next (fun el hel => hr el (by simp [hel])) t.c .lv _ _ _ _ (by omega) a4
    have c3 : NewIn m.next m.next (Λ.initFrom f m2).next [(⟨f.base, false, false, .xv, m2.next⟩ : Expr B)] :=
      NewIn.singleton (by simp only; omega)
    exact (c3.append (c1.1.append c2.1 (Nat.le_refl _) c1.2 c2.2).1 (Nat.le_refl _) (by omega) (by omega)).1.1
  · exact ((g123.mono (by simp)).trans g3).trans (g4.mono (by simp))
  · have hv : m4.get m2.next = m2.get f.addr := by
      rw [g4.frame _ (by omega) (by simp), g3.frame _ (by omega) (fun h => by have := hS _ h; omega), vf]
    refine ⟨rfl, rfl, rfl, by simp only; omega, by simp only; omega, ?_⟩
    rcases hbf : b.f with x | ⟨ty, addr⟩
    · rw [hbf] at hf
      refine ⟨hf.1, ?_⟩
      rw [hv, g2.frame _ hf.2.2.2.2.2.1 (by simp)]
      exact hf.2.2.2.2.2.2
    · rw [hbf] at hf
      refine ⟨by rw [hf], ?_⟩
      rw [hv, hf, g12.frame _ (hr ty addr hbf) (by simp)]
  · refine ⟨n4, ?_⟩
    intro i el hi
    obtain ⟨e, q1, q2⟩ := k4 i el hi
    rw [ht] at q2
    exact ⟨e, q1, (q2.earlier (by omega)).passed⟩
  · refine ⟨by simpa using n3, ?_⟩
    intro i e hi
    obtain ⟨e', q1, q2⟩ := k3 i e hi
    refine ⟨e', q1, ?_⟩
    obtain ⟨d1, d2, d3, d4, d5, d6, d7⟩ := q2.later g4
    exact ⟨d1, d2, d3, d4, by omega, d6, by
      rw [d7, g123.frame _ (hlt e (List.mem_of_getElem? hi)) (by simp)]⟩
  · intro R code
    simp only [Bound.call]
    rw [bound_select b _ h0 h1]
    simp only
    rw [pick_generic b _ h0 h1]
    simp only
    rw [Bound.body, l1]
    simp only
    rw [l2]
    simp only [hd, stdBindFront, decayCopy, apply, Tup.size, applyImpl, a4, FrontBinder.call, Option.map_some]
    rw [killRange_killRange _ _ _ _ (by omega) hn4]

/-- A call of `t << f`, with what the code of `f` gets. -/
theorem call_back [DecidableEq B] (Λ : Lang B V) (idxOf : B → Option Nat) (b : Bound B) (hd : b.dir = .back) (c : Bool)
    (cat : Cat) (args : List (Expr B)) (m : Mem V L) (hok : b.ConstOk c) (hr : b.InRange m.next)
    (hidx : ∀ e, args = [e] → idxOf e.base ≠ some 0 ∧ idxOf e.base ≠ some 1)
    (hlt : ∀ e ∈ args, e.addr < m.next) (hx : Apart args) :
    ∃ fe ts as m', Grows (fun a => ∃ e ∈ args, Moves e a) m m' ∧ CalleeCopy Λ m m' b.f fe ∧
      Pairs (PassedElem Λ m m' (b.tupleConst c)) b.els ts ∧ Pairs (Decayed m m') args as ∧
      ∀ (R : Type) (code : Code B V L R), b.call Λ idxOf code c cat args m =
        .invoked (code fe (as ++ ts) m').1 ((code fe (as ++ ts) m').2.killRange m.next m'.next) := by
  obtain ⟨fe, ts, as, m', -, h⟩ := call_back_exact Λ idxOf b hd c cat args m hok hr hidx hlt hx
  exact ⟨fe, ts, as, m', h⟩

end Pigro.Cxx
