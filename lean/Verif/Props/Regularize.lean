import Verif.Model.Regularize
import Verif.Props.Bind
/-!
# C49: regularized_void, unregularized_void
-/
namespace Pigro.Cxx
variable {B V L R : Type} [DecidableEq B]

/-- `e` is an lvalue denoting a new object of the unqualified type `b` holding `x`. -/
def NewLvalue (m m' : Mem V L) (b : B) (x : V) (e : Expr B) : Prop :=
  e.base = b ∧ e.c = false ∧ e.v = false ∧ e.cat = .lv ∧ m.next ≤ e.addr ∧ e.addr < m'.next ∧ m'.get e.addr = x

omit [DecidableEq B] in
/-- By-value parameters. -/
theorem valueParams_spec (Λ : Lang B V) (args : List (Expr B)) (m : Mem V L) (hlt : ∀ e ∈ args, e.addr < m.next) (hx : Apart args) :
    ∃ ps m', Grows (fun a => ∃ e ∈ args, Moves e a) m m' ∧ Pairs (fun e p => NewLvalue m m' e.base (m.get e.addr) p) args ps ∧
      NewApart m.next ps ∧
      ∀ (R : Type) (body : List (Expr B) → Mem V L → R × Mem V L),
        valueParams Λ body args m = ((body ps m').1, (body ps m').2.killRange m.next m'.next) := by
  obtain ⟨g, l, k⟩ := decayAll_spec Λ args m hlt hx
  have hn := (decayAll_new Λ m.next args m (Nat.le_refl _)).1.1
  refine ⟨(decayAll Λ args m).1.map Expr.named, _, g, ⟨by simpa using l, ?_⟩, ?_, fun R body => rfl⟩
  · intro i e hi
    obtain ⟨e', h1, d1, d2, d3, d4, d5, d6, d7⟩ := k i e hi
    exact ⟨e'.named, by simp [h1], d1, d2, d3, rfl, d5, d6, d7⟩
  · rw [NewApart, List.pairwise_map]
    exact hn

/-- A lambda with `auto` parameters bound with `>>` to one value `s`: what its body gets. -/
theorem boundByValue_call (Λ : Lang B V) (idxOf : B → Option Nat) (b : Bound B) (hd : b.dir = .front) (el : Elem B)
    (hel : b.els = [el]) (s : V) (m : Mem V L) (hs : el.holds Λ m s) (hr : b.InRangeAll m.next) (c : Bool) (hok : b.ConstOk c)
    (cat : Cat) (args : List (Expr B))
    (hidx : ∀ e, args = [e] → idxOf e.base ≠ some 0 ∧ idxOf e.base ≠ some 1)
    (hlt : ∀ e ∈ args, e.addr < m.next) (hx : Apart args) (hal : ∀ e ∈ args, e.cat = .xv → el.object ≠ some e.addr) :
    ∃ p ps m', NewLvalue m m' el.base s p ∧ Pairs (fun e p => NewLvalue m m' e.base (m.get e.addr) p) args ps ∧
      NewApart m.next (p :: ps) ∧ Grows (fun a => ∃ e ∈ args, Moves e a) m m' ∧
      ∀ (R : Type) (body : List (Expr B) → Mem V L → R × Mem V L),
        b.call Λ idxOf (fun _ as m => valueParams Λ body as m) c cat args m =
          .invoked (body (p :: ps) m').1 ((body (p :: ps) m').2.killRange m.next m'.next) := by
  obtain ⟨fe, ts, as, m1, -, hnew, g1, hf, hts, has, hcall⟩ := call_front_exact Λ idxOf b hd c cat args m hok hidx hlt hx.xv
  have hnew := hnew hr
  have n1 := g1.next
  have hmov : ∀ a, (∃ e ∈ args, Moves e a) → a < m.next := by
    rintro a ⟨e, he, h, -⟩
    rw [← h]; exact hlt e he
  rw [hel] at hts
  obtain ⟨t, rfl⟩ : ∃ t, ts = [t] := by
    rcases ts with _ | ⟨t, _ | ⟨t', ts⟩⟩
    · have := hts.1; simp at this
    · exact ⟨t, rfl⟩
    · have := hts.1; simp at this
  have ht : PassedElem Λ m m1 (b.tupleConst c) el t := by
    obtain ⟨e, h1, h2⟩ := hts.2 0 el rfl
    simp only [List.getElem?_cons_zero, Option.some.injEq] at h1
    rw [h1]; exact h2
  -- what is passed on
  have htf : t.addr < m1.next ∧ t.base = el.base ∧ m1.get t.addr = s ∧ (t.cat = .xv → m.next ≤ t.addr) := by
    rcases el with x | ⟨ty, a⟩
    · obtain ⟨q1, q2, q3, q4, q5, q6, q7⟩ := ht
      exact ⟨q6, q1, by rw [q7]; exact hs.symm, fun _ => q5⟩
    · have ha : a < m.next := hr (.stored ty a) (by simp [hel]) ty a rfl
      rw [PassedElem] at ht
      rw [ht]
      refine ⟨by simp only; omega, rfl, ?_, by simp⟩
      simp only
      rw [g1.frame a ha, show m.get a = s from hs]
      rintro ⟨e, he, h1, h2, -⟩
      exact hal e he h2 (by simp [Elem.object, h1])
  have hasf : ∀ (i : Nat) e, args[i]? = some e → ∃ e', as[i]? = some e' ∧ e'.cat = .lv ∧ e'.base = e.base ∧ e'.addr < m1.next ∧
      m1.get e'.addr = m.get e.addr := by
    intro i e hi
    obtain ⟨e', h1, h2⟩ := has.2 i e hi
    have hm := List.mem_of_getElem? hi
    have := hlt e hm
    simp only [Captured] at h2
    rcases hc : e.cat with _ | _ <;> simp only [hc] at h2
    · refine ⟨e', h1, by rw [h2, hc], by rw [h2], by rw [h2]; omega, ?_⟩
      rw [h2, g1.frame _ this]
      rintro ⟨e2, he2, q1, q2, -⟩
      obtain ⟨j, hj, rfl⟩ := List.getElem_of_mem he2
      obtain ⟨hi', rfl⟩ := List.getElem?_eq_some_iff.1 hi
      rw [Apart, List.pairwise_iff_getElem] at hx
      rcases Nat.lt_trichotomy i j with h | h | h
      · exact hx i j hi' hj h (.inr q2) q1.symm
      · subst h; rw [hc] at q2; simp at q2
      · exact hx j i hj hi' h (.inl q2) q1
    · exact ⟨e', h1, h2.2.2.2.1, h2.1, h2.2.2.2.2.2.1, h2.2.2.2.2.2.2⟩
  have haslv : ∀ e' ∈ as, e'.cat = .lv ∧ e'.addr < m1.next := by
    intro e' he'
    obtain ⟨i, hi⟩ := List.mem_iff_getElem?.1 he'
    have hil : i < args.length := by have := (List.getElem?_eq_some_iff.1 hi).1; have := has.1; omega
    obtain ⟨e2, h1, h2, -, h3, -⟩ := hasf i args[i] (by simp [hil])
    rw [hi, Option.some.injEq] at h1
    rw [h1]; exact ⟨h2, h3⟩
  have hap : Apart (t :: as) := by
    rw [Apart, List.pairwise_cons]
    constructor
    · intro a ha h
      have hxv : t.cat = .xv := h.elim id (fun h => by rw [(haslv a ha).1] at h; simp at h)
      have h1 := htf.2.2.2 hxv
      rw [NewApart, List.pairwise_cons] at hnew
      have hnew := hnew.2
      simp only [List.singleton_append, List.pairwise_cons] at hnew
      intro heq
      exact hnew.1 a ha h1 (by omega) heq
    · rw [List.pairwise_iff_getElem]
      intro i j hi hj _ h
      rw [(haslv as[i] (by simp)).1, (haslv as[j] (by simp)).1] at h
      simp at h
  obtain ⟨ps, m2, g2, hps, hpn, hv⟩ := valueParams_spec Λ (t :: as) m1 (by
    intro e he
    rcases List.mem_cons.1 he with rfl | he
    · exact htf.1
    · exact (haslv e he).2) hap
  have n2 := g2.next
  have hmov2 : ∀ a, (∃ e ∈ t :: as, Moves e a) → m.next ≤ a := by
    rintro a ⟨e, he, h1, h2, -⟩
    rcases List.mem_cons.1 he with rfl | he
    · rw [← h1]; exact htf.2.2.2 h2
    · rw [(haslv e he).1] at h2; simp at h2
  obtain ⟨p, ps, rfl⟩ : ∃ p ps', ps = p :: ps' := by
    rcases ps with _ | ⟨p, ps⟩
    · have := hps.1; simp at this
    · exact ⟨p, ps, rfl⟩
  refine ⟨p, ps, m2, ?_, ⟨?_, ?_⟩, ?_, ⟨by omega, by rw [g2.world, g1.world], ?_, ?_, ?_⟩, ?_⟩
  · obtain ⟨e, h1, q1, q2, q3, q4, q5, q6, q7⟩ := hps.2 0 t rfl
    simp only [List.getElem?_cons_zero, Option.some.injEq] at h1
    rw [h1]
    exact ⟨by rw [q1, htf.2.1], q2, q3, q4, by omega, q6, by rw [q7, htf.2.2.1]⟩
  · have := hps.1
    simp only [List.length_cons] at this
    have := has.1
    omega
  · intro i e hi
    obtain ⟨e', h1, h2, h3, h4, h5⟩ := hasf i e hi
    obtain ⟨p', k1, q1, q2, q3, q4, q5, q6, q7⟩ := hps.2 (i + 1) e' (by simpa using h1)
    exact ⟨p', by simpa using k1, by rw [q1, h3], q2, q3, q4, by omega, q6, by rw [q7, h5]⟩
  · refine List.Pairwise.imp_of_mem ?_ hpn
    intro x y hx hy h _ _
    have hge : ∀ x ∈ p :: ps, m1.next ≤ x.addr := by
      intro x hx
      obtain ⟨i, hi⟩ := List.mem_iff_getElem?.1 hx
      have hil : i < (t :: as).length := by have := (List.getElem?_eq_some_iff.1 hi).1; have := hps.1; omega
      obtain ⟨x', k1, -, -, -, -, q5, -⟩ := hps.2 i (t :: as)[i] (by simp)
      rw [hi, Option.some.injEq] at k1
      rw [k1]; exact q5
    exact h (hge x hx) (hge y hy)
  · intro a ha hS
    rw [g2.frame a (by omega) (fun h => by have := hmov2 a h; omega), g1.frame a ha hS]
  · intro a ha
    rw [g2.aliveOld a (by omega), g1.aliveOld a ha]
  · intro a h1 h2
    by_cases h : a < m1.next
    · rw [g2.aliveOld a h]; exact g1.aliveNew a h1 h
    · exact g2.aliveNew a (by omega) h2
  · intro R body
    rw [hcall R, List.singleton_append, hv]
    simp only
    rw [killRange_killRange _ _ _ _ n1 n2]

/-- Making a `regularized_void(f)`: it holds one value, a copy of `f`. -/
theorem regularizer_spec (Λ : Lang B V) (isCT : B → Bool) (tb lam : B) (f : Expr B) (m : Mem V L) (hf : f.addr < m.next)
    (hEf : Λ.isEmpty f.base = true → m.get f.addr = Λ.emptyVal f.base)
    (hct : isCT f.base = false) (htb : Λ.isEmpty tb = Λ.isEmpty f.base) :
    ∃ (g : Bound B) (m1 : Mem V L) (el : Elem B), regularizer Λ isCT tb lam f m = some (g, m1) ∧ g.dir = .front ∧ g.els = [el] ∧ el.base = f.base ∧
      el.holds Λ m1 (m.get f.addr) ∧ g.InRangeAll m1.next ∧ (∀ c, g.ConstOk c) ∧ m1.world = m.world ∧ m.next ≤ m1.next ∧
      (∀ a, el.object = some a → m.next ≤ a) := by
  have n1 : m.next ≤ (Λ.initFrom f m).next := (initFrom_grows Λ f m hf).1.next
  obtain ⟨gi, ni, vi⟩ := initFrom_grows Λ f m hf
  have ga := Grows.alloc (fun _ => False) (Λ.initFrom f m) (Λ.emptyVal lam)
  have na : ((Λ.initFrom f m).alloc (Λ.emptyVal lam)).next = (Λ.initFrom f m).next + 1 := rfl
  have hp : ((Λ.initFrom f m).alloc (Λ.emptyVal lam)).get m.next = m.get f.addr := by
    rw [ga.frame _ (by omega) (by simp), vi]
  obtain ⟨g, m1, h1, h2, h3, -, h5, -, -, -, -, -, h11, h12, h13, -, h15, -, -, h18, h19⟩ :=
    makeBound_spec_all Λ isCT tb .front [⟨f.base, false, false, .lv, m.next⟩] ⟨lam, false, false, .xv, (Λ.initFrom f m).next⟩
      ((Λ.initFrom f m).alloc (Λ.emptyVal lam)) (by
        intro e he
        rw [List.mem_singleton] at he
        rw [he]; simp only; omega) (by simp only; omega) (by
        intro e he h
        rw [List.mem_singleton] at he
        rw [he] at h ⊢
        simp only at h ⊢
        rw [hp]; exact hEf h) (by
        intro _
        simp [Mem.alloc]) (by
        intro e he
        simp only [List.cons.injEq, and_true] at he
        rw [← he]; exact hct) (by simpa using htb)
  obtain ⟨el, hel⟩ : ∃ el, g.els = [el] := by
    rcases hg : g.els with _ | ⟨x, _ | ⟨y, l⟩⟩ <;> rw [hg] at h3 <;> simp at h3
    exact ⟨x, rfl⟩
  have hreg : regularizer Λ isCT tb lam f m = some (g, m1.killRange m.next ((Λ.initFrom f m).alloc (Λ.emptyVal lam)).next) := by
    simp only [regularizer, decayCopy, Expr.named]
    rw [h1]; rfl
  rw [hel] at h11 h15 h19
  refine ⟨g, _, el, hreg, h2, hel, ?_, ?_, ?_, h18 rfl, ?_, ?_, ?_⟩
  · obtain ⟨e, he, h⟩ := h19 0 el rfl
    simp only [List.getElem?_cons_zero, Option.some.injEq] at he
    rcases h with h | ⟨a, h⟩ <;> rw [h, ← he] <;> rfl
  · obtain ⟨v, hv, hh⟩ := h11.2 0 el rfl
    simp only [List.map_cons, List.map_nil, List.getElem?_cons_zero, Option.some.injEq] at hv
    rw [hp] at hv
    rw [hv]
    exact hh
  · intro x hx ty a h
    exact h5.2 a (List.mem_filterMap.2 ⟨x, hx, by rw [h]; rfl⟩)
  · rw [show (m1.killRange _ _).world = m1.world from rfl, h12, ga.world, gi.world]
  · show m.next ≤ m1.next
    omega
  · intro a ha
    rcases el with x | ⟨ty, a'⟩
    · simp [Elem.object] at ha
    · simp only [Elem.object, Option.some.injEq] at ha
      have := h15 0 ty a' rfl
      omega

/-- **C49** (partial: `f` and the arguments are copied). `regularized_void(f)(args...)` invokes the code of `f` once, whatever it does, on a new object
holding the value of `f`, with lvalues denoting new objects holding the values of the arguments; it returns `regular_void` if `f` returns
`void`, and otherwise what `f` returns. This for every call at any later time: `mc` is the memory then. -/
theorem C49_regularized_partial (Λ : Lang B V) (isCT : B → Bool) (idxOf : B → Option Nat) (tb lam : B) (f : Expr B) (m : Mem V L)
    (hf : f.addr < m.next) (hEf : Λ.isEmpty f.base = true → m.get f.addr = Λ.emptyVal f.base)
    (hct : isCT f.base = false) (htb : Λ.isEmpty tb = Λ.isEmpty f.base) :
    ∃ (g : Bound B) (m1 : Mem V L) (el : Elem B), regularizer Λ isCT tb lam f m = some (g, m1) ∧ el.holds Λ m1 (m.get f.addr) ∧ m1.world = m.world ∧ m.next ≤ m1.next ∧
      (∀ a, el.object = some a → m.next ≤ a) ∧
      ∀ (mc : Mem V L) (s : V) (c : Bool) (cat : Cat) (args : List (Expr B)), m1.next ≤ mc.next → el.holds Λ mc s →
        (∀ e, args = [e] → idxOf e.base ≠ some 0 ∧ idxOf e.base ≠ some 1) →
        (∀ e ∈ args, e.addr < mc.next ∧ el.object ≠ some e.addr) → Apart args →
        ∃ p ps m', NewLvalue mc m' f.base s p ∧ Pairs (fun e p => NewLvalue mc m' e.base (mc.get e.addr) p) args ps ∧
          NewApart mc.next (p :: ps) ∧ Grows (fun a => ∃ e ∈ args, Moves e a) mc m' ∧
          ∀ (R : Type) (kind : RetKind) (code : Code B V L (Ret R)),
            g.call Λ idxOf (regularizedLam Λ kind code) c cat args mc =
              .invoked (if kind = .void then .regular else (code p ps m').1) ((code p ps m').2.killRange mc.next m'.next) ∧
            g.call Λ idxOf (unregularizedLam Λ kind code) c cat args mc =
              .invoked (if kind = .regular then .void else (code p ps m').1) ((code p ps m').2.killRange mc.next m'.next) := by
  obtain ⟨g, m1, el, h1, h2, h3, h4, h5, h6, h7, h8, h9, h10⟩ := regularizer_spec Λ isCT tb lam f m hf hEf hct htb
  refine ⟨g, m1, el, h1, h5, h8, h9, h10, ?_⟩
  intro mc s c cat args hn hs hidx hargs hap
  obtain ⟨p, ps, m', k1, k2, k3, k4, k5⟩ := boundByValue_call Λ idxOf g h2 el h3 s mc hs
    (fun e he ty a h => by have := h6 e he ty a h; omega) c (h7 c) cat args hidx (fun e he => (hargs e he).1) hap
    (fun e he _ => (hargs e he).2)
  rw [h4] at k1
  refine ⟨p, ps, m', k1, k2, k3, k4, ?_⟩
  intro R kind code
  constructor
  · have := k5 (Ret R) (fun ps m => match ps with
      | [] => (.void, m)
      | f :: args => if kind = .void then (.regular, (code f args m).2) else code f args m)
    refine Eq.trans this ?_
    by_cases h : kind = .void <;> simp [h]
  · have := k5 (Ret R) (fun ps m => match ps with
      | [] => (.void, m)
      | f :: args => if kind = .regular then (.void, (code f args m).2) else code f args m)
    refine Eq.trans this ?_
    by_cases h : kind = .regular <;> simp [h]

/-- **C49** (partial in the same way), the way back: `unregularized_void(regularized_void(f))(args...)`, for an `f` that does not return `regular_void`,
invokes the code of `f` once and returns what it returns, `void` included. `g` is the outer object, the inner one its bound value. -/
theorem C49_round_trip_partial (Λ : Lang B V) (idxOf : B → Option Nat) (tb lam inner : B)
    (g : Bound B) (hd : g.dir = .front)
    (el : Elem B) (hel : g.els = [el]) (s : V) (m : Mem V L) (hs : el.holds Λ m s)
    (hin : Λ.isEmpty inner = true → s = Λ.emptyVal inner) (hr : g.InRangeAll m.next) (c : Bool)
    (hok : g.ConstOk c) (cat : Cat) (args : List (Expr B))
    (hidx : ∀ e, args = [e] → idxOf e.base ≠ some 0 ∧ idxOf e.base ≠ some 1)
    (hlt : ∀ e ∈ args, e.addr < m.next) (hx : Apart args) (hal : ∀ e ∈ args, e.cat = .xv → el.object ≠ some e.addr) :
    ∃ p ps m', NewLvalue m m' inner s p ∧ Pairs (fun e p => NewLvalue m m' e.base (m.get e.addr) p) args ps ∧
      Grows (fun a => ∃ e ∈ args, Moves e a) m m' ∧
      ∀ (R : Type) (kind : RetKind) (code : Code B V L (Ret R)), kind ≠ .regular → (∀ callee args m, (code callee args m).1.kind = kind) →
        g.call Λ idxOf (unregularizedLam Λ (if kind = .void then .regular else kind)
            (regularizerCode Λ idxOf tb lam inner (regularizedLam Λ kind code))) c cat args m =
          .invoked (code p ps m').1 ((code p ps m').2.killRange m.next m'.next) := by
  obtain ⟨p1, ps1, m1, k1, k2, k3, k4, k5⟩ := boundByValue_call Λ idxOf g hd el hel s m hs hr c hok cat args hidx hlt hx hal
  have n1 := k4.next
  have hps : ∀ (i : Nat) e, ps1[i]? = some e → ∃ e0, args[i]? = some e0 ∧ NewLvalue m m1 e0.base (m.get e0.addr) e := by
    intro i e hi
    have hil : i < args.length := by have := (List.getElem?_eq_some_iff.1 hi).1; have := k2.1; omega
    obtain ⟨e', q1, q2⟩ := k2.2 i args[i] (by simp [hil])
    rw [hi, Option.some.injEq] at q1
    exact ⟨args[i], by simp [hil], by rw [q1]; exact q2⟩
  have hlv : ∀ e ∈ ps1, e.cat = .lv ∧ e.addr < m1.next := by
    intro e he
    obtain ⟨i, hi⟩ := List.mem_iff_getElem?.1 he
    obtain ⟨e0, -, q⟩ := hps i e hi
    exact ⟨q.2.2.2.1, q.2.2.2.2.2.1⟩
  -- the inner object
  obtain ⟨el2, b2, hb2, hd2, hel2, hs2, hr2, hok2, hbase2⟩ : ∃ el2 b2, b2 = (⟨.front, .empty lam,
        (if Λ.isEmpty inner then .empty tb else .stored ⟨tb, false, false, .none⟩ p1.addr),
        (if Λ.isEmpty inner then [.empty inner] else [.stored ⟨inner, false, false, .none⟩ p1.addr])⟩ : Bound B) ∧ b2.dir = .front ∧
      b2.els = [el2] ∧ el2.holds Λ m1 s ∧ b2.InRangeAll m1.next ∧ b2.ConstOk p1.c ∧ el2.base = inner := by
    cases hi : Λ.isEmpty inner
    · refine ⟨.stored ⟨inner, false, false, .none⟩ p1.addr, _, rfl, rfl, rfl, k1.2.2.2.2.2.2, ?_, ⟨?_, ?_, ?_⟩, rfl⟩
      · intro el hel ty a h
        rcases List.mem_cons.1 hel with rfl | hel
        · simp at h
        · simp only [Bool.false_eq_true, if_false, List.mem_singleton] at hel
          rw [hel] at h
          simp only [Elem.stored.injEq] at h
          rw [← h.2]; exact k1.2.2.2.2.2.1
      · simp [Elem.constOk]
      · simp [Elem.constOk]
      · simp [Elem.constOk]
    · refine ⟨.empty inner, _, rfl, rfl, rfl, hin hi, ?_, ⟨?_, ?_, ?_⟩, rfl⟩
      · intro el hel ty a h
        rcases List.mem_cons.1 hel with rfl | hel
        · simp at h
        · simp only [if_true, List.mem_singleton] at hel
          rw [hel] at h
          simp at h
      · simp [Elem.constOk]
      · simp [Elem.constOk]
      · simp [Elem.constOk]
  obtain ⟨p2, ps2, m2, j1, j2, j3, j4, j5⟩ := boundByValue_call Λ idxOf b2 hd2 el2 hel2 s m1 hs2 hr2 p1.c hok2 p1.cat ps1 (by
      intro e he
      obtain ⟨e0, q1, q2⟩ := hps 0 e (by rw [he]; rfl)
      have : args = [e0] := by
        have := k2.1
        rw [he] at this
        rcases args with _ | ⟨x, _ | ⟨y, args⟩⟩
        · simp at q1
        · simpa using q1
        · simp at this
      rw [q2.1]
      exact hidx e0 this) (fun e he => (hlv e he).2) (by
      rw [Apart, List.pairwise_iff_getElem]
      intro i j hi hj _ h
      rw [(hlv ps1[i] (by simp)).1, (hlv ps1[j] (by simp)).1] at h
      simp at h) (by
      intro e he h
      rw [(hlv e he).1] at h
      simp at h)
  have n2 := j4.next
  have g2 : Grows (fun _ => False) m1 m2 := j4.mono (by
    rintro a ⟨e, he, -, h, -⟩
    rw [(hlv e he).1] at h
    simp at h)
  refine ⟨p2, ps2, m2, ?_, ⟨by rw [j2.1, k2.1], ?_⟩, k4.trans (g2.mono (by simp)), ?_⟩
  · rw [hbase2] at j1
    obtain ⟨q1, q2, q3, q4, q5, q6, q7⟩ := j1
    exact ⟨q1, q2, q3, q4, by omega, q6, q7⟩
  · intro i e hi
    obtain ⟨e1, q1, q2⟩ := k2.2 i e hi
    obtain ⟨e2, r0, r1, r2, r3, r4, r5, r6, r7⟩ := j2.2 i e1 q1
    exact ⟨e2, r0, by rw [r1, q2.1], r2, r3, r4, by omega, r6, by rw [r7, q2.2.2.2.2.2.2]⟩
  · intro R kind code hk hkind
    have inner' : regularizerCode Λ idxOf tb lam inner (regularizedLam Λ kind code) p1 ps1 m1 =
        (if kind = .void then .regular else (code p2 ps2 m2).1, (code p2 ps2 m2).2.killRange m1.next m2.next) := by
      have := j5 (Ret R) (fun ps m => match ps with
        | [] => (.void, m)
        | f :: args => if kind = .void then (.regular, (code f args m).2) else code f args m)
      rw [hb2] at this
      have hc := Eq.trans (show Bound.call Λ idxOf (regularizedLam Λ kind code) _ p1.c p1.cat ps1 m1 = _ from rfl) this
      simp only [regularizerCode, hc]
      by_cases h : kind = .void <;> simp [h]
    have := k5 (Ret R) (fun ps m => match ps with
      | [] => (.void, m)
      | f :: args => if (if kind = .void then RetKind.regular else kind) = .regular
          then (.void, (regularizerCode Λ idxOf tb lam inner (regularizedLam Λ kind code) f args m).2)
          else regularizerCode Λ idxOf tb lam inner (regularizedLam Λ kind code) f args m)
    refine Eq.trans this ?_
    simp only [inner']
    have hres := hkind p2 ps2 m2
    by_cases h : kind = .void
    · have : (code p2 ps2 m2).1 = .void := by
        rw [h] at hres
        rcases hc : (code p2 ps2 m2).1 with _ | _ | r <;> rw [hc] at hres <;> simp_all [Ret.kind]
      simp only [h, if_true]
      rw [killRange_killRange _ _ _ _ n1 n2, this]
    · simp only [h, if_false, hk]
      rw [killRange_killRange _ _ _ _ n1 n2]

/-- A result with `void` made regular. -/
def Ret.regularized : Ret R → Ret R
  | .void => .regular
  | r => r

/-- And back. -/
def Ret.unregularized : Ret R → Ret R
  | .regular => .void
  | r => r

/-- Calls of a function one after another, each starting from the same own state: the results, `fix` applied. -/
def callEach (pf : PureFn V L (Ret R)) (fix : Ret R → Ret R) (s : V) : List (List V) → L → List (Ret R)
  | [], _ => []
  | vs :: calls, w => fix (pf s vs w).1 :: callEach pf fix s calls (pf s vs w).2.2.2

/-- Repeated calls of a lambda with `auto` parameters that calls `pf` and changes the result by `fix`. -/
theorem runCalls_byValue (Λ : Lang B V) (idxOf : B → Option Nat) (g : Bound B) (hd : g.dir = .front) (el : Elem B)
    (hel : g.els = [el]) (s : V) (hok : g.ConstOk false) (pf : PureFn V L (Ret R)) (fix : Ret R → Ret R) (lam : Code B V L (Ret R))
    (hlam : ∀ callee (args : List (Expr B)) (m : Mem V L), lam callee args m = valueParams Λ (fun ps m =>
      match ps with
      | [] => (.void, m)
      | f :: args => (fix (pf.code f args m).1, (pf.code f args m).2)) args m) :
    ∀ (calls : List (Cat × List (B × V))) (m : Mem V L), el.holds Λ m s → g.InRangeAll m.next →
      (∀ p ∈ calls, ∀ x, p.2 = [x] → idxOf x.1 ≠ some 0 ∧ idxOf x.1 ≠ some 1) →
      g.runCalls Λ idxOf lam calls m = (callEach pf fix s (calls.map fun p => p.2.map (·.2)) m.world).map some := by
  intro calls
  induction calls with
  | nil => intro m _ _ _; rfl
  | cons call calls ih =>
    obtain ⟨cat, vals⟩ := call
    intro m hs hr hidx
    obtain ⟨ga, l, k, n⟩ := temporaries_spec vals m
    obtain ⟨hmem, hap, -, -⟩ := temporaries_args vals m
    have hobj : ∀ a, el.object = some a → a < m.next := by
      intro a ha
      rcases el with x | ⟨ty, a'⟩
      · simp [Elem.object] at ha
      · simp only [Elem.object, Option.some.injEq] at ha
        rw [← ha]; exact hr (.stored ty a') (by simp [hel]) ty a' rfl
    have hs1 : el.holds Λ (temporaries vals m).2 s := by
      rcases el with x | ⟨ty, a⟩
      · exact hs
      · simp only [Elem.holds] at hs ⊢
        rw [ga.frame a (hobj a rfl) (by simp), hs]
    obtain ⟨p, ps, m', k1, k2, k3, k4, k5⟩ := boundByValue_call Λ idxOf g hd el hel s (temporaries vals m).2 hs1
      (fun e he ty a h => by have := hr e he ty a h; omega) false hok cat (temporaries vals m).1
      (lone_idx idxOf vals m (hidx (cat, vals) (by simp))) (fun e he => (hmem e he).1) hap (fun e he _ h => by
        have := hobj _ h; have := (hmem e he).2.1; omega)
    have hvals : (ps.map fun e => m'.get e.addr) = vals.map (·.2) := by
      apply List.ext_getElem?
      intro i
      by_cases hil : i < vals.length
      · obtain ⟨j1, j2, j3⟩ := k i vals[i] (by simp [hil])
        obtain ⟨e', h1, h2⟩ := k2.2 i _ j1
        rw [List.getElem?_map, h1, List.getElem?_map, List.getElem?_eq_getElem hil]
        simp only [Option.map_some, Option.some.injEq]
        rw [h2.2.2.2.2.2.2]
        exact j3
      · have := k2.1
        rw [List.getElem?_eq_none (by rw [List.length_map]; omega), List.getElem?_eq_none (by rw [List.length_map]; omega)]
    have hw : m'.world = m.world := by rw [k4.world, ga.world]
    have hlameq : lam = fun _ as m => valueParams Λ (fun ps m =>
      match ps with
      | [] => (.void, m)
      | f :: args => (fix (pf.code f args m).1, (pf.code f args m).2)) as m := by
      funext a b c; exact hlam a b c
    have hcall := k5 (Ret R) (fun ps m =>
      match ps with
      | [] => (.void, m)
      | f :: args => (fix (pf.code f args m).1, (pf.code f args m).2))
    rw [← hlameq] at hcall
    simp only at hcall
    rw [Bound.runCalls, Bound.callWith]
    simp only [hcall, List.map_cons, callEach]
    have hres : (pf.code p ps m').1 = (pf s (vals.map (·.2)) m.world).1 := by
      simp only [PureFn.code]
      rw [k1.2.2.2.2.2.2, hvals, hw]
    have hworld : (pf.code p ps m').2.world = (pf s (vals.map (·.2)) m.world).2.2.2 := by
      simp only [PureFn.code]
      rw [k1.2.2.2.2.2.2, hvals, hw]
    have hnext : (pf.code p ps m').2.next = m'.next := by
      simp only [PureFn.code]
      rw [assignAll_next]
      split <;> rfl
    have n4 := k4.next
    rw [ih, hres]
    · rw [show ((Mem.killRange (Mem.killRange (pf.code p ps m').2 _ _) m.next (temporaries vals m).2.next).world) = (pf.code p ps m').2.world
        from rfl, hworld]
    · rcases el with x | ⟨ty, a⟩
      · exact hs
      · have ha := hobj a rfl
        simp only [Elem.holds] at hs ⊢
        show (pf.code p ps m').2.get a = s
        simp only [PureFn.code]
        show (assignAll ps _ 0 _).get a = s
        rw [assignAll_other]
        · have hne : a ≠ p.addr := by have := k1.2.2.2.2.1; omega
          have hm' : m'.get a = s := by
            rw [k4.frame a (by omega), ga.frame a ha (by simp), hs]
            rintro ⟨e, he, h1, -⟩
            have := (hmem e he).2.1
            omega
          split
          · exact hm'
          · simp [Mem.write, hne, hm']
        · intro e he _
          obtain ⟨i, hi⟩ := List.mem_iff_getElem?.1 he
          have hil : i < (temporaries vals m).1.length := by have := (List.getElem?_eq_some_iff.1 hi).1; have := k2.1; omega
          obtain ⟨e', h1, h2⟩ := k2.2 i (temporaries vals m).1[i] (by simp)
          rw [hi, Option.some.injEq] at h1
          rw [h1]
          have := h2.2.2.2.2.1
          omega
    · intro e he ty a h
      have := hr e he ty a h
      show a < (pf.code p ps m').2.next
      omega
    · exact fun q hq => hidx q (by simp [hq])

/-- **C49** (partial: state of its own that `f` has is not kept between calls, as each call calls a copy), for repeated calls with new objects as
arguments of a function looking at values: the results are those of `f` called with the same arguments and the world handed on, with
`regular_void` for `void` (or `void` for `regular_void`). -/
theorem C49_calls_partial (Λ : Lang B V) (isCT : B → Bool) (idxOf : B → Option Nat) (tb lam : B) (f : Expr B) (m : Mem V L)
    (hf : f.addr < m.next) (hEf : Λ.isEmpty f.base = true → m.get f.addr = Λ.emptyVal f.base)
    (hct : isCT f.base = false) (htb : Λ.isEmpty tb = Λ.isEmpty f.base) :
    ∃ g m1, regularizer Λ isCT tb lam f m = some (g, m1) ∧
      ∀ (R : Type) (pf : PureFn V L (Ret R)) (kind : RetKind) (calls : List (Cat × List (B × V))),
        (∀ s vs w, (pf s vs w).1.kind = kind) →
        (∀ p ∈ calls, ∀ x, p.2 = [x] → idxOf x.1 ≠ some 0 ∧ idxOf x.1 ≠ some 1) →
        g.runCalls Λ idxOf (regularizedLam Λ kind pf.code) calls m1 =
          (callEach pf .regularized (m.get f.addr) (calls.map fun p => p.2.map (·.2)) m.world).map some ∧
        g.runCalls Λ idxOf (unregularizedLam Λ kind pf.code) calls m1 =
          (callEach pf .unregularized (m.get f.addr) (calls.map fun p => p.2.map (·.2)) m.world).map some := by
  obtain ⟨g, m1, el, h1, h2, h3, h4, h5, h6, h7, h8, h9, h10⟩ := regularizer_spec Λ isCT tb lam f m hf hEf hct htb
  refine ⟨g, m1, h1, ?_⟩
  intro R pf kind calls hk hidx
  have hk' : ∀ callee (args : List (Expr B)) (m : Mem V L), (pf.code callee args m).1.kind = kind := fun _ _ _ => hk _ _ _
  rw [← h8]
  constructor
  · refine runCalls_byValue Λ idxOf g h2 el h3 _ (h7 false) pf _ _ ?_ calls m1 h5 h6 hidx
    intro callee args m
    rw [regularizedLam]
    congr 1
    funext ps m
    rcases ps with _ | ⟨f, args⟩
    · rfl
    · have := hk' f args m
      by_cases h : kind = .void
      · rcases hr : (pf.code f args m).1 with _ | _ | r <;> rw [hr, h] at this <;> simp_all [Ret.kind, Ret.regularized]
      · rcases hr : (pf.code f args m).1 with _ | _ | r <;> rw [hr] at this <;> simp_all [Ret.kind, Ret.regularized] <;> rw [← hr]
  · refine runCalls_byValue Λ idxOf g h2 el h3 _ (h7 false) pf _ _ ?_ calls m1 h5 h6 hidx
    intro callee args m
    rw [unregularizedLam]
    congr 1
    funext ps m
    rcases ps with _ | ⟨f, args⟩
    · rfl
    · have := hk' f args m
      by_cases h : kind = .regular
      · rcases hr : (pf.code f args m).1 with _ | _ | r <;> rw [hr, h] at this <;> simp_all [Ret.kind, Ret.unregularized]
      · rcases hr : (pf.code f args m).1 with _ | _ | r <;> rw [hr] at this <;> simp_all [Ret.kind, Ret.unregularized] <;> rw [← hr]

/-! ### Examples and refutations -/

/-- Returns nothing and counts its calls in the world, adding the arguments. -/
def exLog : PureFn Nat Nat (Ret Nat) := fun s vs w => (.void, s, fun i => vs[i]?.getD 0, w + 1 + vs.sum)

/-- Returns its own state plus the world and counts both up. -/
def exTick : PureFn Nat Nat (Ret Nat) := fun s vs w => (.val (s + w), s + 1, fun i => (vs[i]?.getD 0) + 1, w + 10)

/-- Memory with a number as the world. -/
def memN (xs : List Nat) : Mem Nat Nat := ⟨fun a => xs.getD a 0, fun a => decide (a < xs.length), xs.length, 0, []⟩

/-- Hypotheses of C49 for a function object with state given as an lvalue; results of three calls. -/
example : ∃ g m1, regularizer exLang (fun _ => false) "T" "E" ⟨"F", false, false, .lv, 0⟩ (memN [40]) = some (g, m1) ∧
    g.runCalls exLang exIdx (regularizedLam exLang .val exTick.code) [(.lv, []), (.xv, [("int", 1)]), (.lv, [])] m1 =
      [some (.val 40), some (.val 50), some (.val 60)] ∧
    g.runCalls exLang exIdx (regularizedLam exLang .void exLog.code) [(.lv, []), (.xv, [("int", 1)])] m1 = [some .regular, some .regular] := by
  obtain ⟨g, m1, h1, h2⟩ := C49_calls_partial exLang (fun _ => false) exIdx "T" "E" ⟨"F", false, false, .lv, 0⟩ (memN [40])
    (by decide) (by decide) rfl rfl
  refine ⟨g, m1, h1, ?_, ?_⟩
  · rw [(h2 Nat exTick .val _ (fun _ _ _ => rfl) (by simp [exIdx])).1]; decide
  · rw [(h2 Nat exLog .void _ (fun _ _ _ => rfl) (by simp [exIdx])).1]; decide

/-- The way back, for a function returning nothing: one call with an lvalue and an rvalue argument, which count in the world. -/
example : ∃ (g : Bound String) (m1 : Mem Nat Nat),
    regularizer exLang (fun _ => false) "T" "E" ⟨"G", false, false, .xv, 0⟩ (memN [40, 1, 2]) = some (g, m1) ∧
    (match g.call exLang exIdx (unregularizedLam exLang .regular (regularizerCode exLang exIdx "T" "E" "F"
        (regularizedLam exLang .void exLog.code))) false .lv [⟨"int", false, false, .lv, 1⟩, ⟨"int", false, false, .xv, 2⟩] m1 with
      | .invoked r m => some (r, m.world)
      | _ => none) = some (.void, 4) := by
  refine ⟨_, _, rfl, ?_⟩
  decide

/-- **C49 is false for a function with state of its own**: calls of `regularized_void(f)` do not change it. -/
theorem C49_own_state_lost : ∃ (g : Bound String) (m1 : Mem Nat Nat),
    regularizer exLang (fun _ => false) "T" "E" ⟨"F", false, false, .lv, 0⟩ (memN [40]) = some (g, m1) ∧
    g.runCalls exLang exIdx (regularizedLam exLang .val exTick.code) [(.lv, []), (.lv, [])] m1 = [some (.val 40), some (.val 50)] ∧
    (let callee : Expr String := ⟨"F", false, false, .lv, 0⟩
     let r1 := exTick.code callee [] (memN [40])
     let r2 := exTick.code callee [] r1.2
     [r1.1, r2.1] = [.val 40, .val 51]) := by
  refine ⟨_, _, rfl, ?_, ?_⟩ <;> decide

/-- **C49 is false for a function that changes its arguments**: called with an lvalue, `f` increments that object, `regularized_void(f)` does not. -/
theorem C49_argument_change_lost : ∃ (g : Bound String) (m1 : Mem Nat Nat),
    regularizer exLang (fun _ => false) "T" "E" ⟨"F", false, false, .lv, 0⟩ (memN [40, 5]) = some (g, m1) ∧
    (match g.call exLang exIdx (regularizedLam exLang .val exTick.code) false .lv [⟨"int", false, false, .lv, 1⟩] m1 with
      | .invoked _ m => some (m.get 1)
      | _ => none) = some 5 ∧
    (exTick.code (⟨"F", false, false, .lv, 0⟩ : Expr String) [⟨"int", false, false, .lv, 1⟩] (memN [40, 5])).2.get 1 = 6 := by
  refine ⟨_, _, rfl, ?_, ?_⟩ <;> decide

end Pigro.Cxx
