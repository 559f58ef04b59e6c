import Verif.Spec.Tuple
import Verif.Proofs.Construct
/-!
# A compressed tuple refines its specification
-/
namespace Pigro.Cxx
variable {B V L : Type} [DecidableEq B]

/-- Relation between memory and specification variables. -/
def Rel (Λ : Lang B V) (ts : List (Ty B)) (els : List (Elem B)) (next : Nat) (m : Mem V L) (s : Vars V) : Prop :=
  (∀ a < next, m.get a = s.src a) ∧
  (∀ (i : Nat) (t : Ty B) (a : Nat), ts[i]? = some t → els[i]? = some (.stored ⟨t.base, t.c, t.v, .none⟩ a) →
    Λ.isEmpty t.base = false → t.ref ≠ .lref → m.get a = s.own i)

theorem useReal_useSpec (Λ : Lang B V) (ts : List (Ty B)) (es : List (Expr B)) (els : List (Elem B))
    (m0 m1 : Mem V L) (hlt : ∀ e ∈ es, e.addr < m0.next) (hl : es.length = ts.length)
    (hl' : els.length = ts.length)
    (hb : ∀ (i : Nat) (t : Ty B) (e : Expr B), ts[i]? = some t → es[i]? = some e →
      ∃ el, els[i]? = some el ∧ BuiltFor Λ m0 m1 t e el)
    (hpw : els.Pairwise (fun x y => ∀ a b, x.owned = some a → y.owned = some b → a < b))
    (m : Mem V L) (s : Vars V) (hrel : Rel Λ ts els m0.next m s) (op : Op V) (hop : op.ok m0.next) :
    (useReal Λ els m op).1 = (useSpec Λ ts es s op).1 ∧
    Rel Λ ts els m0.next (useReal Λ els m op).2 (useSpec Λ ts es s op).2 := by
  -- owned objects are new
  have hown : ∀ (i : Nat) (t : Ty B) (a : Nat), ts[i]? = some t →
      els[i]? = some (.stored ⟨t.base, t.c, t.v, .none⟩ a) → Λ.isEmpty t.base = false → t.ref ≠ .lref →
      m0.next ≤ a := by
    intro i t a ht hel hE hr
    have hi : i < es.length := by have := (List.getElem?_eq_some_iff.1 ht).1; omega
    obtain ⟨el, h1, h2, h3⟩ := hb i t es[i] ht (by simp [hi])
    simp only [hE, hr, Bool.false_eq_true, if_false] at h3
    obtain ⟨a', k1, k2, -⟩ := h3
    rw [hel, k1] at h1
    simp only [Option.some.injEq, Elem.stored.injEq, true_and] at h1
    omega
  have hdist : ∀ (i j : Nat) (t t' : Ty B) (a b : Nat), i ≠ j →
      els[i]? = some (.stored ⟨t.base, t.c, t.v, .none⟩ a) →
      els[j]? = some (.stored ⟨t'.base, t'.c, t'.v, .none⟩ b) → a ≠ b := by
    intro i j t t' a b hij hi hj
    rw [List.pairwise_iff_getElem] at hpw
    obtain ⟨hi1, hi2⟩ := List.getElem?_eq_some_iff.1 hi
    obtain ⟨hj1, hj2⟩ := List.getElem?_eq_some_iff.1 hj
    rcases Nat.lt_or_gt_of_ne hij with h | h
    · have := hpw i j hi1 hj1 h a b (by simp [hi2, Elem.owned]) (by simp [hj2, Elem.owned])
      omega
    · have := hpw j i hj1 hi1 h b a (by simp [hj2, Elem.owned]) (by simp [hi2, Elem.owned])
      omega
  obtain ⟨hsrc, hownrel⟩ := hrel
  cases op with
  | writeSrc a x =>
    refine ⟨rfl, ?_, ?_⟩
    · intro b hbn
      simp only [useReal, useSpec, Mem.write, hsrc b hbn]
    · intro i t b ht hel hE hr
      have := hown i t b ht hel hE hr
      have hne : b ≠ a := by simp only [Op.ok] at hop; omega
      simp only [useReal, useSpec, Mem.write, hne, if_false]
      exact hownrel i t b ht hel hE hr
  | readSrc a =>
    refine ⟨?_, hsrc, hownrel⟩
    simp only [useReal, useSpec, hsrc a hop]
  | writeElem c cat i x =>
    simp only [useReal, useSpec, get_eq]
    rcases hti : ts[i]? with _ | t
    · have : els[i]? = none := by
        rw [List.getElem?_eq_none_iff] at hti ⊢; omega
      simp only [this, getSpec]
      exact ⟨trivial, hsrc, hownrel⟩
    · have hi : i < es.length := by have := (List.getElem?_eq_some_iff.1 hti).1; omega
      have hei : es[i]? = some es[i] := by simp [hi]
      obtain ⟨el, h1, hbase, h3⟩ := hb i t es[i] hti hei
      simp only [h1, hei]
      cases hE : Λ.isEmpty t.base
      · simp only [hE, Bool.false_eq_true, if_false] at h3 ⊢
        by_cases hr : t.ref = .lref
        · simp only [hr, if_true] at h3 ⊢
          obtain ⟨rfl, -⟩ := h3
          obtain ⟨a1, a2, a3⟩ := access_base t (es[i]).addr false cat
          obtain ⟨a4, a5⟩ := access_cat t (es[i]).addr cat
          simp only [getSpec]
          cases c
          · simp only [Bool.false_eq_true, if_false, a4, Bool.false_or]
            cases hc : t.c
            · simp only [Bool.false_eq_true, if_false, a2]
              refine ⟨trivial, ?_, ?_⟩
              · intro b hbn
                simp only [Mem.write, hsrc b hbn]
              · intro j t' b ht' hel' hE' hr'
                have := hown j t' b ht' hel' hE' hr'
                have hlte := hlt es[i] (List.getElem_mem hi)
                have hne : b ≠ (es[i]).addr := by omega
                simp only [Mem.write, hne, if_false]
                exact hownrel j t' b ht' hel' hE' hr'
            · simp only [if_true]
              exact ⟨trivial, hsrc, hownrel⟩
          · simp only [if_true, Bool.true_or]
            cases (access t (es[i]).addr false cat).v <;> simp only [Bool.false_eq_true, if_false, if_true] <;>
              exact ⟨trivial, hsrc, hownrel⟩
        · simp only [hr, if_false] at h3 ⊢
          obtain ⟨a, rfl, k2, k3, -⟩ := h3
          obtain ⟨a1, a2, a3⟩ := access_base (⟨t.base, t.c, t.v, .none⟩ : Ty B) a false cat
          obtain ⟨a4, a5⟩ := access_cat (⟨t.base, t.c, t.v, .none⟩ : Ty B) a cat
          simp only [getSpec]
          cases c
          · simp only [Bool.false_eq_true, if_false, a4, Bool.false_or]
            cases hc : t.c
            · simp only [Bool.false_eq_true, if_false]
              rw [hc] at a2
              rw [a2]
              refine ⟨trivial, ?_, ?_⟩
              · intro b hbn
                have hne : b ≠ a := by omega
                simp only [Mem.write, hne, if_false, hsrc b hbn]
              · intro j t' b ht' hel' hE' hr'
                by_cases hji : j = i
                · subst hji
                  rw [h1] at hel'
                  simp only [Option.some.injEq, Elem.stored.injEq] at hel'
                  simp [Mem.write, hel'.2]
                · have hne := hdist j i t' t b a hji hel' h1
                  simp only [Mem.write, hne, hji, if_false]
                  exact hownrel j t' b ht' hel' hE' hr'
            · simp only [if_true]
              exact ⟨trivial, hsrc, hownrel⟩
          · simp only [if_true, Bool.true_or]
            cases (access (⟨t.base, t.c, t.v, .none⟩ : Ty B) a false cat).v <;>
              simp only [Bool.false_eq_true, if_false, if_true] <;>
              exact ⟨trivial, hsrc, hownrel⟩
      · simp only [hE, if_true] at h3 ⊢
        subst h3
        simp only [getSpec]
        exact ⟨trivial, hsrc, hownrel⟩
  | readElem c cat i =>
    simp only [useReal, useSpec, get_eq]
    rcases hti : ts[i]? with _ | t
    · have : els[i]? = none := by
        rw [List.getElem?_eq_none_iff] at hti ⊢; omega
      simp only [this, getSpec]
      exact ⟨trivial, hsrc, hownrel⟩
    · have hi : i < es.length := by have := (List.getElem?_eq_some_iff.1 hti).1; omega
      have hei : es[i]? = some es[i] := by simp [hi]
      obtain ⟨el, h1, hbase, h3⟩ := hb i t es[i] hti hei
      simp only [h1, hei]
      cases hE : Λ.isEmpty t.base
      · simp only [hE, Bool.false_eq_true, if_false] at h3 ⊢
        by_cases hr : t.ref = .lref
        · simp only [hr, if_true] at h3 ⊢
          obtain ⟨rfl, -⟩ := h3
          obtain ⟨a1, a2, a3⟩ := access_base t (es[i]).addr false cat
          have hs := hsrc (es[i]).addr (hlt _ (List.getElem_mem hi))
          simp only [getSpec, a3]
          cases c <;> cases hv : t.v <;>
            simp only [Bool.false_eq_true, if_false, if_true, Bool.and_true,
              Bool.and_false, a2, hs] <;>
            exact ⟨trivial, hsrc, hownrel⟩
        · simp only [hr, if_false] at h3 ⊢
          obtain ⟨a, rfl, k2, k3, -⟩ := h3
          obtain ⟨a1, a2, a3⟩ := access_base (⟨t.base, t.c, t.v, .none⟩ : Ty B) a false cat
          have hs := hownrel i t a hti h1 hE hr
          simp only [getSpec, a3]
          cases c <;> cases hv : t.v <;> rw [hv] at a2 <;>
            simp only [Bool.false_eq_true, if_false, if_true, Bool.and_true,
              Bool.and_false, a2, hs] <;>
            exact ⟨trivial, hsrc, hownrel⟩
      · simp only [hE, if_true] at h3 ⊢
        subst h3
        simp only [getSpec]
        exact ⟨trivial, hsrc, hownrel⟩

end Pigro.Cxx
