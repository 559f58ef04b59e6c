import Verif.Props.Regularize
/-!
# Lambdas with by-value parameters bound with `<<`
-/
namespace Pigro.Cxx
variable {B V L R : Type}

/-- The values of by-value parameters. -/
theorem newLvalue_values {m m' : Mem V L} {es ps : List (Expr B)}
    (h : Pairs (fun e p => NewLvalue m m' e.base (m.get e.addr) p) es ps) :
    (ps.map fun p => m'.get p.addr) = es.map fun e => m.get e.addr := by
  apply List.ext_getElem?
  intro i
  by_cases hi : i < es.length
  · obtain ⟨p, h1, -, -, -, -, -, -, h2⟩ := h.2 i es[i] (by simp [hi])
    rw [List.getElem?_map, List.getElem?_map, h1, List.getElem?_eq_getElem hi]
    simp [h2]
  · rw [List.getElem?_eq_none (by have := h.1; simp; omega), List.getElem?_eq_none (by simp; omega)]

theorem Pairs.right_mem {α β : Type} {P : α → β → Prop} {as : List α} {bs : List β} (h : Pairs P as bs) {b : β} (hb : b ∈ bs) :
    ∃ a ∈ as, P a b := by
  obtain ⟨i, hi⟩ := List.mem_iff_getElem?.1 hb
  have hil : i < as.length := by have := (List.getElem?_eq_some_iff.1 hi).1; have := h.1; omega
  obtain ⟨b', h1, h2⟩ := h.2 i as[i] (by simp [hil])
  rw [hi, Option.some.injEq] at h1
  exact ⟨as[i], by simp, h1 ▸ h2⟩

/-- A lambda with `auto` parameters (after the first `k`) bound with `<<`: what its body gets. -/
theorem backByValue_call [DecidableEq B] (Λ : Lang B V) (idxOf : B → Option Nat) (b : Bound B) (hd : b.dir = .back) (c : Bool) (cat : Cat)
    (args : List (Expr B)) (m : Mem V L) (hok : b.ConstOk c) (hr : b.InRangeAll m.next)
    (hidx : ∀ e, args = [e] → idxOf e.base ≠ some 0 ∧ idxOf e.base ≠ some 1)
    (hlt : ∀ e ∈ args, e.addr < m.next) (hx : Apart args) (s : V) (hs : b.f.holds Λ m s) (vs : List V) (hvs : HoldAll Λ m b.els vs)
    (hal : ∀ e ∈ args, e.cat = .xv → ∀ el ∈ b.els, el.object ≠ some e.addr) (k : Nat) (hk : k ≤ args.length) :
    ∃ fe ps m', m.next ≤ fe.addr ∧ fe.addr < m'.next ∧ m'.get fe.addr = s ∧
      (∀ p ∈ ps, p.c = false ∧ p.v = false ∧ p.cat = .lv ∧ m.next ≤ p.addr ∧ p.addr < m'.next ∧ p.addr ≠ fe.addr) ∧
      (ps.Pairwise fun x y => x.addr ≠ y.addr) ∧
      (ps.map fun p => m'.get p.addr) = ((args.drop k).map fun e => m.get e.addr) ++ vs ∧
      Grows (fun a => ∃ e ∈ args, Moves e a) m m' ∧
      ∀ (R : Type) (body : Expr B → List (Expr B) → Mem V L → R × Mem V L),
        b.call Λ idxOf (fun callee as m => valueParams Λ (body callee) (as.drop k) m) c cat args m =
          .invoked (body fe ps m').1 ((body fe ps m').2.killRange m.next m'.next) := by
  obtain ⟨fe, ts, as, m1, hnew, g1, hf, hts, has, hcall⟩ := call_back_exact Λ idxOf b hd c cat args m hok
    (fun ty addr h => hr b.f (by simp) ty addr h) hidx hlt hx
  have hnew := hnew hr
  have n1 := g1.next
  obtain ⟨-, -, fxv, flo, fhi, hfv⟩ := hf
  -- the arguments of the lambda
  have hasf : ∀ e ∈ as, e.cat = .xv ∧ m.next ≤ e.addr ∧ e.addr < m1.next := by
    intro e he
    obtain ⟨e0, -, -, -, -, h1, h2, h3, -⟩ := has.right_mem he
    exact ⟨h1, h2, h3⟩
  have htsf : ∀ e ∈ ts, e.addr < m1.next ∧ (e.cat = .xv → m.next ≤ e.addr) := by
    intro e he
    obtain ⟨el, hel, h⟩ := hts.right_mem he
    rcases el with x | ⟨ty, a⟩
    · obtain ⟨-, -, -, -, h5, h6, -⟩ := h
      exact ⟨h6, fun _ => h5⟩
    · have ha : a < m.next := hr _ (List.mem_cons_of_mem _ hel) ty a rfl
      rw [PassedElem] at h
      rw [h]
      exact ⟨by simp only; omega, by simp⟩
  have hlist : ∀ e ∈ as ++ ts, e.addr < m1.next ∧ (e.cat = .xv → m.next ≤ e.addr) := by
    intro e he
    rcases List.mem_append.1 he with he | he
    · exact ⟨(hasf e he).2.2, fun _ => (hasf e he).2.1⟩
    · exact htsf e he
  have hnew2 := List.pairwise_cons.1 hnew
  have hap : Apart (as ++ ts) := by
    refine List.Pairwise.imp_of_mem ?_ hnew2.2
    intro x y hx hy h hc heq
    have h1 := (hlist x hx).2
    have h2 := (hlist y hy).2
    rcases hc with hc | hc
    · exact h (h1 hc) (by have := h1 hc; omega) heq
    · exact h (by have := h2 hc; omega) (h2 hc) heq
  obtain ⟨ps, m2, g2, hps, hpn, hv⟩ := valueParams_spec Λ ((as ++ ts).drop k) m1
    (fun e he => (hlist e (List.mem_of_mem_drop he)).1) (hap.sublist (List.drop_sublist _ _))
  have n2 := g2.next
  have hmov2 : ∀ a, (∃ e ∈ (as ++ ts).drop k, Moves e a) → m.next ≤ a ∧ a ≠ fe.addr := by
    rintro a ⟨e, he, h1, h2, -⟩
    have he := List.mem_of_mem_drop he
    have h3 := (hlist e he).2 h2
    refine ⟨by omega, ?_⟩
    have := hnew2.1 e he flo h3
    intro h; omega
  have hpsf : ∀ p ∈ ps, p.c = false ∧ p.v = false ∧ p.cat = .lv ∧ m1.next ≤ p.addr ∧ p.addr < m2.next := by
    intro p hp
    obtain ⟨e0, -, -, h1, h2, h3, h4, h5, -⟩ := hps.right_mem hp
    exact ⟨h1, h2, h3, h4, h5⟩
  have hmov : ∀ a, (∃ e ∈ args, Moves e a) → a < m.next := by
    rintro a ⟨e, he, h, -⟩
    rw [← h]; exact hlt e he
  have hls : as.length = args.length := has.1
  refine ⟨fe, ps, m2, flo, by omega, ?_, ?_, ?_, ?_, ⟨by omega, by rw [g2.world, g1.world], ?_, ?_, ?_⟩, ?_⟩
  · rw [g2.frame _ fhi (fun h => (hmov2 _ h).2 rfl)]
    rcases hbf : b.f with x | ⟨ty, a⟩
    · rw [hbf] at hfv hs
      rw [hfv.2]; exact hs.symm
    · rw [hbf] at hfv hs
      rw [hfv.2]; exact hs
  · intro p hp
    obtain ⟨h1, h2, h3, h4, h5⟩ := hpsf p hp
    exact ⟨h1, h2, h3, by omega, h5, by omega⟩
  · refine List.Pairwise.imp_of_mem ?_ hpn
    intro x y hx hy h
    exact h (hpsf x hx).2.2.2.1 (hpsf y hy).2.2.2.1
  · rw [newLvalue_values hps, List.drop_append_of_le_length (by omega), List.map_append, List.map_drop, decayed_values has, ← List.map_drop,
      holdAll_map g1 hvs hts]
    intro i ty a hi
    have hm := List.mem_of_getElem? hi
    refine ⟨hr _ (List.mem_cons_of_mem _ hm) ty a rfl, ?_⟩
    rintro ⟨e, he, h1, h2, -⟩
    exact hal e he h2 _ hm (by simp [Elem.object, h1])
  · intro a ha hS
    rw [g2.frame a (by omega) (fun h => by have := (hmov2 a h).1; omega), g1.frame a ha hS]
  · intro a ha
    rw [g2.aliveOld a (by omega), g1.aliveOld a ha]
  · intro a h1 h2
    by_cases h : a < m1.next
    · rw [g2.aliveOld a h]; exact g1.aliveNew a h1 h
    · exact g2.aliveNew a (by omega) h2
  · intro R body
    rw [hcall R, hv, killRange_killRange _ _ _ _ n1 n2]

end Pigro.Cxx
