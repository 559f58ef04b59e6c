import Verif.Model.LazyGlue
import Verif.Proofs.ByValue
import Verif.Proofs.LazyMem
/-!
# Binders that hand the callable and the arguments over by copy or by reference
-/
namespace Pigro.Cxx
variable {B V L R : Type} [DecidableEq B]

/-! ### With copies, these are the binders of bind_tuple.h -/

theorem bodyG_true (Λ : Lang B V) (code : Code B V L R) (b : Bound B) (self : Expr Unit) (args : List (Expr B)) (m : Mem V L) :
    b.bodyG Λ true code self args m = b.body Λ code self args m := by
  simp only [Bound.bodyG, Bound.body, bindFrontG, if_true]
  rfl

theorem callG_true (Λ : Lang B V) (idxOf : B → Option Nat) (code : Code B V L R) (b : Bound B) (c : Bool) (cat : Cat) (args : List (Expr B))
    (m : Mem V L) : b.callG Λ idxOf true code c cat args m = b.call Λ idxOf code c cat args m := by
  simp only [Bound.callG, Bound.call, bodyG_true]
  rfl

theorem bodyG_front (Λ : Lang B V) (copies : Bool) (code : Code B V L R) (b : Bound B) (hd : b.dir = .front) (self : Expr Unit)
    (args : List (Expr B)) (m : Mem V L) : b.bodyG Λ copies code self args m = b.body Λ code self args m := by
  simp only [Bound.bodyG, Bound.body, hd]
  rfl

theorem callG_front (Λ : Lang B V) (idxOf : B → Option Nat) (copies : Bool) (code : Code B V L R) (b : Bound B) (hd : b.dir = .front) (c : Bool)
    (cat : Cat) (args : List (Expr B)) (m : Mem V L) : b.callG Λ idxOf copies code c cat args m = b.call Λ idxOf code c cat args m := by
  simp only [Bound.callG, Bound.call, bodyG_front Λ copies code b hd]
  rfl

/-! ### What the code gets -/

/-- The callable, handed over by copy or by reference. -/
def CalleeG (Λ : Lang B V) (copies c : Bool) (m m' : Mem V L) (el : Elem B) (e : Expr B) : Prop :=
  if copies then CalleeCopy Λ m m' el e else CalleeRef Λ m m' c el e

/-- A call of `t << f`, with what the code of `f` gets. -/
theorem callG_back (Λ : Lang B V) (idxOf : B → Option Nat) (copies : Bool) (b : Bound B) (hd : b.dir = .back) (c : Bool)
    (cat : Cat) (args : List (Expr B)) (m : Mem V L) (hok : b.ConstOk c) (hr : b.InRangeAll m.next)
    (hidx : ∀ e, args = [e] → idxOf e.base ≠ some 0 ∧ idxOf e.base ≠ some 1)
    (hlt : ∀ e ∈ args, e.addr < m.next) (hx : Apart args) :
    ∃ fe ts as m', NewApart m.next (fe :: (as ++ ts)) ∧ Grows (fun a => ∃ e ∈ args, Moves e a) m m' ∧ CalleeG Λ copies c m m' b.f fe ∧
      Pairs (PassedElem Λ m m' (b.tupleConst c)) b.els ts ∧ Pairs (Decayed m m') args as ∧
      ∀ (R : Type) (code : Code B V L R), b.callG Λ idxOf copies code c cat args m =
        .invoked (code fe (as ++ ts) m').1 ((code fe (as ++ ts) m').2.killRange m.next m'.next) := by
  rcases copies with _ | _
  · obtain ⟨h0, h1⟩ := loneIndex_ne idxOf args hidx
    obtain ⟨f, t, m1, m2, l1, l2, g1, g2, hf, ht⟩ := bound_locals Λ b c cat m hok
    have g12 := g1.trans g2
    have n12 := g12.next
    have n1 := g1.next
    have n2 := g2.next
    obtain ⟨g3, n3, k3⟩ := decayAll_spec Λ args m2 (fun e he => by have := hlt e he; omega) hx
    obtain ⟨ts, m4, a4, n4, g4, k4⟩ := getAll_spec Λ b.els t.c .lv (decayAll Λ args m2).2 (by rw [ht]; exact hok.2.2)
    have hS : ∀ a, (∃ e ∈ args, Moves e a) → a < m.next := by
      rintro a ⟨e, he, hm⟩
      have := hlt e he
      have := hm.1
      omega
    have hn3 := g3.next
    have hn4 := g4.next
    refine ⟨f, ts, (decayAll Λ args m2).1, m4, ?_, ?_, ?_, ?_, ?_, ?_⟩
    · have c1 := decayAll_new Λ m.next args m2 (by omega)
      have c2 := getAll_new Λ b.els m.next (fun el hel => hr el (by simp [hel])) t.c .lv _ _ _ _ (by omega) a4
      have c3 : NewIn m.next m.next m1.next [f] := NewIn.singleton (by
        rcases hbf : b.f with x | ⟨ty, addr⟩
        · rw [hbf] at hf; exact .inr ⟨hf.2.2.2.2.1, hf.2.2.2.2.2.1⟩
        · rw [hbf] at hf; rw [hf]; exact .inl (hr b.f (by simp) ty addr hbf))
      exact (c3.append (c1.1.append c2.1 (Nat.le_refl _) c1.2 c2.2).1 n2 n1 (by omega)).1.1
    · exact ((g12.mono (by simp)).trans g3).trans (g4.mono (by simp))
    · exact ((hf.later _ (by simp) g2).later _ hS g3).later _ (by simp) g4
    · refine ⟨n4, ?_⟩
      intro i el hi
      obtain ⟨e, q1, q2⟩ := k4 i el hi
      rw [ht] at q2
      exact ⟨e, q1, (q2.earlier (by omega)).passed⟩
    · refine ⟨by simpa using n3, ?_⟩
      intro i e hi
      obtain ⟨e', q1, q2⟩ := k3 i e hi
      refine ⟨e', q1, ?_⟩
      obtain ⟨d1, d2, d3, d4, d5, d6, d7⟩ := q2.later g4
      exact ⟨d1, d2, d3, d4, by omega, d6, by
        rw [d7, g12.frame _ (hlt e (List.mem_of_getElem? hi)) (by simp)]⟩
    · intro R code
      simp only [Bound.callG]
      rw [bound_select b _ h0 h1]
      simp only
      rw [pick_generic b _ h0 h1]
      simp only
      rw [Bound.bodyG, l1]
      simp only
      rw [l2]
      simp only [hd, bindFrontG, Bool.false_eq_true, if_false, apply, Tup.size, applyImpl, a4, FrontBinder.call, Option.map_some]
      rw [killRange_killRange _ _ _ _ (by omega) hn4]
  · obtain ⟨fe, ts, as, m', h1, h2, h3, h4, h5, h6⟩ := call_back_exact Λ idxOf b hd c cat args m hok
      (fun ty addr h => hr b.f (by simp) ty addr h) hidx hlt hx
    exact ⟨fe, ts, as, m', h1 hr, h2, h3, h4, h5, fun R code => by rw [callG_true]; exact h6 R code⟩

end Pigro.Cxx

namespace Pigro.LM
open Cxx
variable {D W E S : Type}

/-- What has become of the members `s` (the callable) and `vs` of a bound callable, given what has become of the callee `fe` and of the
parameters `ps` (without the first `n`) of the code, nothing else in memory having changed. -/
def Kept (Λ : LLang D W E S) (copies byValue : Bool) (fel : Elem LB) (els : List (Elem LB)) (s : MV D W E S) (vs : List (MV D W E S)) (fe : Expr LB)
    (ps : List (Expr LB)) (n : Nat) (m' : LMem D W E S) : Prop :=
  ∀ m'' : LMem D W E S, (∀ a < m'.next, a ≠ fe.addr → (∀ q ∈ ps, q.addr ≠ a) → m''.get a = m'.get a) →
    (∀ s', m''.get fe.addr = s' → ((∃ b, fel = .empty b) → s' = s) → elemVal Λ m'' fel = keep copies s s') ∧
    (∀ vs', ((ps.drop n).map fun q => m''.get q.addr) = vs' → (∀ (i : Nat) b, els[i]? = some (.empty b) → vs'[i]? = vs[i]?) →
      els.map (elemVal Λ m'') = keep byValue vs vs')

/-- The cells of members. -/
def InCells (lo hi : Nat) (els : List (Elem LB)) : Prop :=
  ∀ el ∈ els, (∃ b, el = .empty b) ∨ ∃ b a, el = .stored ⟨b, false, false, .none⟩ a ∧ lo ≤ a ∧ a < hi

/-- No two members share a cell. -/
def CellsApart (els : List (Elem LB)) : Prop :=
  els.Pairwise fun x y => ∀ a, x.object = some a → y.object ≠ some a

/-- Calling an object made with `compressed_tuple{ xs... } << lambda`: what the body of the lambda gets, `auto` parameters (or `auto &&`) being
those after the first `k`. `m0` is the memory before the members (and the closure) were laid out. -/
theorem backCallG (Θ : Empties D W E S) (moved : MV D W E S → MV D W E S) (copies byValue : Bool) (fel t : Elem LB) (els : List (Elem LB)) (c : Bool)
    (cat : Cat) (ht : t.constOk c) (args : List (Expr LB)) (m0 m : LMem D W E S) (hg0 : Grows (fun _ => False) m0 m) (s : MV D W E S)
    (vs : List (MV D W E S)) (hels : InCells m0.next m.next (fel :: els)) (hdis : CellsApart (fel :: els))
    (hs : fel.holds (lang Θ moved) m s) (hvs : HoldAll (lang Θ moved) m els vs)
    (hlt : ∀ e ∈ args, e.addr < m0.next) (hx : Apart args) (k : Nat) (hk : k ≤ args.length) :
    ∃ fe ps m', (m0.next ≤ fe.addr ∧ fe.addr < m'.next ∧ m'.get fe.addr = s ∧ (copies = true → m.next ≤ fe.addr) ∧
        (copies = false → ∀ ty a, fel = .stored ty a → fe.addr = a)) ∧
      ((∀ a, m0.next ≤ a → a < m'.next → m'.alive a = true) ∧ (byValue = true → ∀ q ∈ ps, m.next ≤ q.addr) ∧
        (byValue = false → ∀ (i : Nat) ty a, els[i]? = some (.stored ty a) → ∃ q, (ps.drop (args.length - k))[i]? = some q ∧ q.addr = a)) ∧
      (∀ q ∈ ps, q.cat = .lv ∧ m0.next ≤ q.addr ∧ q.addr < m'.next ∧ q.addr ≠ fe.addr) ∧
      (ps.Pairwise fun x y => x.addr ≠ y.addr) ∧
      (ps.map fun q => m'.get q.addr) = ((args.drop k).map fun e => m0.get e.addr) ++ vs ∧ m'.world = m0.world ∧
      Keeps (fun a => ∃ e ∈ args, Moves e a) m0 m' ∧ m.next ≤ m'.next ∧
      Kept (lang Θ moved) copies byValue fel els s vs fe ps (args.length - k) m' ∧
      ∀ (R : Type) (body : Expr LB → List (Expr LB) → LMem D W E S → Out E R × LMem D W E S),
        (⟨.back, fel, t, els⟩ : Bound LB).callG (lang Θ moved).toLang noIdx copies
          (fun callee as m => paramsG (lang Θ moved).toLang byValue (body callee) (as.drop k) m) c cat args m =
            .invoked (body fe ps m').1 ((body fe ps m').2.killRange m.next m'.next) := by
  have hn0 := hg0.next
  have hok : ∀ c' el, el ∈ fel :: els → el.constOk c' := by
    intro c' el hel
    rcases hels el hel with ⟨b, rfl⟩ | ⟨b, a, rfl, -⟩
    · trivial
    · exact fun _ => rfl
  have hobj : ∀ el ∈ fel :: els, ∀ a, el.object = some a → m0.next ≤ a ∧ a < m.next := by
    intro el hel a h
    rcases hels el hel with ⟨b, rfl⟩ | ⟨b, a', rfl, h2, h3⟩
    · simp [Elem.object] at h
    · simp only [Elem.object, Option.some.injEq] at h
      omega
  obtain ⟨fe, ts, as, m1, hnew, g1, hf, hts, has, hcall⟩ := callG_back (lang Θ moved).toLang noIdx copies ⟨.back, fel, t, els⟩ rfl c cat args m
    ⟨hok c _ (by simp), ht, fun el hel => hok _ _ (by simp [hel])⟩ (by
      intro el hel ty addr h
      exact (hobj el hel addr (by rw [h]; rfl)).2) (fun e _ => ⟨by simp [noIdx], by simp [noIdx]⟩)
    (fun e he => by have := hlt e he; omega) hx
  simp only at hf hts
  have n1 := g1.next
  have hnm : ∀ a, m0.next ≤ a → ¬ ∃ e ∈ args, Moves e a := by
    rintro a ha ⟨e, he, h, -⟩
    have := hlt e he
    omega
  -- the callee
  have hfe : m0.next ≤ fe.addr ∧ fe.addr < m1.next ∧ m1.get fe.addr = s ∧ (m.next ≤ fe.addr ∨ copies = false ∧ fel.object = some fe.addr) := by
    rw [CalleeG] at hf
    split at hf
    · obtain ⟨-, -, -, f4, f5, f6⟩ := hf
      refine ⟨by omega, f5, ?_, .inl f4⟩
      rcases fel with x | ⟨ty, a⟩
      · rw [f6.2]; exact hs.symm
      · rw [f6.2]; exact hs
    · rename_i hc
      rcases fel with x | ⟨ty, a⟩
      · obtain ⟨-, -, -, -, f5, f6, f7⟩ := hf
        exact ⟨by omega, f6, by rw [f7]; exact hs.symm, .inl f5⟩
      · have ha := hobj _ (List.mem_cons_self ..) a rfl
        rw [CalleeRef] at hf
        subst hf
        refine ⟨ha.1, by simp only; omega, ?_, .inr ⟨by simpa using hc, rfl⟩⟩
        simp only
        rw [g1.frame a ha.2 (hnm a ha.1)]
        exact hs
  -- the arguments of the lambda
  have hasf : ∀ e ∈ as, e.cat = .xv ∧ m.next ≤ e.addr ∧ e.addr < m1.next := by
    intro e he
    obtain ⟨e0, -, -, -, -, h1, h2, h3, -⟩ := has.right_mem he
    exact ⟨h1, h2, h3⟩
  have htsf : ∀ (i : Nat) e, ts[i]? = some e → ∃ el, els[i]? = some el ∧ e.addr < m1.next ∧
      (m.next ≤ e.addr ∧ (∃ b, el = .empty b) ∨ e.cat = .lv ∧ el.object = some e.addr) := by
    intro i e he
    have hil : i < els.length := by have := (List.getElem?_eq_some_iff.1 he).1; have := hts.1; omega
    obtain ⟨e', h1, h2⟩ := hts.2 i els[i] (by simp [hil])
    rw [he, Option.some.injEq] at h1
    subst h1
    refine ⟨els[i], by simp [hil], ?_⟩
    rcases hel : els[i] with x | ⟨ty, a⟩
    · rw [hel] at h2
      obtain ⟨-, -, -, -, h5, h6, -⟩ := h2
      exact ⟨h6, .inl ⟨h5, _, rfl⟩⟩
    · rw [hel, PassedElem] at h2
      subst h2
      have := hobj _ (List.mem_cons_of_mem fel (hel ▸ List.getElem_mem hil)) a rfl
      exact ⟨by simp only; omega, .inr ⟨rfl, rfl⟩⟩
  have hlow : ∀ e ∈ as ++ ts, m0.next ≤ e.addr ∧ e.addr < m1.next ∧ (e.cat = .xv → m.next ≤ e.addr) := by
    intro e he
    rcases List.mem_append.1 he with he | he
    · have := hasf e he
      exact ⟨by omega, this.2.2, fun _ => this.2.1⟩
    · obtain ⟨i, hi⟩ := List.mem_iff_getElem?.1 he
      obtain ⟨el, h1, h2, h3 | h3⟩ := htsf i e hi
      · exact ⟨by omega, h2, fun _ => h3.1⟩
      · have := hobj el (List.mem_cons_of_mem _ (List.mem_of_getElem? h1)) _ h3.2
        exact ⟨this.1, h2, fun h => by rw [h3.1] at h; simp at h⟩
  have hold : (fe :: (as ++ ts)).Pairwise fun x y => x.addr < m.next → y.addr < m.next → x.addr ≠ y.addr := by
    have hd := List.pairwise_cons.1 hdis
    refine List.pairwise_cons.2 ⟨?_, List.pairwise_append.2 ⟨?_, ?_, ?_⟩⟩
    · intro e he h1 h2
      rcases List.mem_append.1 he with he | he
      · have := hasf e he; omega
      · obtain ⟨i, hi⟩ := List.mem_iff_getElem?.1 he
        obtain ⟨el, q1, q2, q3 | q3⟩ := htsf i e hi
        · omega
        · rcases hfe.2.2.2 with h | ⟨-, h⟩
          · omega
          · intro heq
            exact hd.1 el (List.mem_of_getElem? q1) _ h (by rw [heq]; exact q3.2)
    · refine List.Pairwise.imp_of_mem (R := fun _ _ => True) ?_ (List.pairwise_of_forall (fun _ _ => trivial))
      intro x y hx hy _ h1
      have := hasf x hx; omega
    · rw [List.pairwise_iff_getElem]
      intro i j hi hj hij h1 h2 heq
      obtain ⟨el, q1, q2, q3 | q3⟩ := htsf i ts[i] (by simp [hi])
      · omega
      obtain ⟨el', r1, r2, r3 | r3⟩ := htsf j ts[j] (by simp [hj])
      · omega
      obtain ⟨hi', rfl⟩ := List.getElem?_eq_some_iff.1 q1
      obtain ⟨hj', rfl⟩ := List.getElem?_eq_some_iff.1 r1
      exact (List.pairwise_iff_getElem.1 hd.2) i j hi' hj' hij _ q3.2 (by rw [heq]; exact r3.2)
    · intro x hx y _ h1
      have := hasf x hx; omega
  have hdist : (fe :: (as ++ ts)).Pairwise fun x y => x.addr ≠ y.addr := by
    refine List.Pairwise.imp_of_mem ?_ (List.Pairwise.and hnew hold)
    intro x y hx hy ⟨h1, h2⟩ heq
    rcases Nat.lt_or_ge x.addr m.next with h | h
    · exact h2 h (by omega) heq
    · exact h1 h (by omega) heq
  have hd2 := List.pairwise_cons.1 hdist
  have hls : as.length = args.length := has.1
  have hlt' : ts.length = els.length := hts.1
  have hvals : ((as ++ ts).drop k).map (fun e => m1.get e.addr) = ((args.drop k).map fun e => m0.get e.addr) ++ vs := by
    rw [List.drop_append_of_le_length (by omega), List.map_append, List.map_drop, decayed_values has, ← List.map_drop,
      holdAll_map g1 hvs hts]
    · congr 1
      apply List.map_congr_left
      intro e he
      exact hg0.frame _ (hlt e (List.mem_of_mem_drop he)) (by simp)
    · intro i ty a hi
      have := hobj _ (List.mem_cons_of_mem fel (List.mem_of_getElem? hi)) a rfl
      exact ⟨this.2, hnm a this.1⟩
  have hk1 : Keeps (fun a => ∃ e ∈ args, Moves e a) m0 m1 :=
    ((Keeps.ofGrows hg0).mono (fun _ _ h => h.elim)).trans (Keeps.ofGrows g1) fun _ _ h => h
  have hcells : ∀ (i : Nat) ty a, els[i]? = some (.stored ty a) → a ≠ fe.addr ∧ m0.next ≤ a ∧ a < m.next ∧ m1.get a = elemVal (lang Θ moved) m (.stored ty a) ∧
      ∃ e, ts[i]? = some e ∧ e.addr = a := by
    intro i ty a hi
    have hb := hobj _ (List.mem_cons_of_mem fel (List.mem_of_getElem? hi)) a rfl
    obtain ⟨e, h1, h2⟩ := hts.2 i _ hi
    rw [PassedElem] at h2
    refine ⟨?_, hb.1, hb.2, g1.frame a hb.2 (hnm a hb.1), e, h1, by rw [h2]⟩
    intro heq
    exact hd2.1 e (List.mem_append_right _ (List.mem_of_getElem? h1)) (by rw [h2, ← heq])
  have hfcell : ∀ ty a, fel = .stored ty a → (∀ e ∈ as ++ ts, e.addr ≠ a) ∧ m0.next ≤ a ∧ a < m.next ∧ m1.get a = s ∧ (copies = true → a ≠ fe.addr) := by
    intro ty a h
    have hb := hobj fel (by simp) a (by rw [h]; rfl)
    refine ⟨?_, hb.1, hb.2, ?_, ?_⟩
    · intro e he heq
      rcases List.mem_append.1 he with he | he
      · have := hasf e he; omega
      · obtain ⟨i, hi⟩ := List.mem_iff_getElem?.1 he
        obtain ⟨el, q1, q2, q3 | q3⟩ := htsf i e hi
        · omega
        · exact (List.pairwise_cons.1 hdis).1 el (List.mem_of_getElem? q1) a (by rw [h]; rfl) (by rw [← heq]; exact q3.2)
    · rw [g1.frame a hb.2 (hnm a hb.1)]
      rw [h] at hs
      exact hs
    · intro hc heq
      rcases hfe.2.2.2 with h | ⟨h, -⟩
      · omega
      · rw [hc] at h; simp at h
  have hfl1 : copies = true → m.next ≤ fe.addr := by
    intro hc
    rcases hfe.2.2.2 with h | ⟨h, -⟩
    · exact h
    · rw [hc] at h; simp at h
  have hfl2 : copies = false → ∀ ty a, fel = .stored ty a → fe.addr = a := by
    intro hc ty a h
    rw [CalleeG, if_neg (by simp [hc]), h, CalleeRef] at hf
    rw [hf]
  have hal1 : ∀ a, m0.next ≤ a → a < m1.next → m1.alive a = true := by
    intro a h1 h2
    rcases Nat.lt_or_ge a m.next with h | h
    · rw [g1.aliveOld a h, hg0.aliveNew a h1 h]
    · exact g1.aliveNew a h h2
  rcases byValue with _ | _
  · -- by reference
    refine ⟨fe, ((as ++ ts).drop k).map Expr.named, m1, ⟨hfe.1, hfe.2.1, hfe.2.2.1, hfl1, hfl2⟩, ⟨hal1, by simp, ?_⟩, ?_, ?_, ?_, by rw [g1.world, hg0.world], hk1, n1, ?_, ?_⟩
    · intro _ i ty a hi
      obtain ⟨-, -, -, -, e, h1, h2⟩ := hcells i ty a hi
      refine ⟨e.named, ?_, h2⟩
      rw [← List.map_drop, List.drop_drop, List.drop_left' (by omega), List.getElem?_map, h1]
      rfl
    · intro q hq
      obtain ⟨e, he, rfl⟩ := List.mem_map.1 hq
      have he := List.mem_of_mem_drop he
      have := hlow e he
      exact ⟨rfl, this.1, this.2.1, fun h => hd2.1 e he h.symm⟩
    · rw [List.pairwise_map]
      exact hd2.2.sublist (List.drop_sublist _ _)
    · rw [List.map_map]
      exact hvals
    · intro m'' hfr
      have hdrop : ((((as ++ ts).drop k).map Expr.named).drop (args.length - k)) = ts.map Expr.named := by
        rw [← List.map_drop, List.drop_drop, List.drop_left' (by omega)]
      refine ⟨?_, ?_⟩
      · intro s' hs' hemp
        rcases hfl : fel with x | ⟨ty, a⟩
        · have h := hemp ⟨x, hfl⟩
          rw [hfl] at hs
          rw [h, show keep copies s s = s by cases copies <;> rfl]
          exact hs.symm
        · obtain ⟨q1, q2, q3, q4, q5⟩ := hfcell ty a hfl
          rcases copies with _ | _
          · show m''.get a = s'
            rw [CalleeG, if_neg (by simp), hfl, CalleeRef] at hf
            rw [← hs', hf]
          · show m''.get a = s
            rw [hfr a (by omega) (q5 rfl) (by
              intro q hq
              obtain ⟨e, he, rfl⟩ := List.mem_map.1 hq
              exact q1 e (List.mem_of_mem_drop he)), q4]
      · intro vs' hv' hemp
        rw [hdrop, List.map_map] at hv'
        show _ = vs'
        apply List.ext_getElem?
        intro i
        rw [List.getElem?_map]
        rcases hi : els[i]? with _ | (x | ⟨ty, a⟩)
        · rw [List.getElem?_eq_none_iff] at hi
          rw [← hv', Option.map_none, eq_comm, List.getElem?_eq_none_iff, List.length_map]
          omega
        · obtain ⟨y, h1, h2⟩ := hvs.2 i _ hi
          rw [hemp i x hi, h1, Option.map_some]
          exact congrArg some h2.symm
        · obtain ⟨-, -, -, -, e, h1, h2⟩ := hcells i ty a hi
          rw [← hv', List.getElem?_map, h1, Option.map_some, Option.map_some]
          exact congrArg some (by rw [← h2]; rfl)
    · intro R body
      rw [hcall (Out E R)]
      simp only [paramsG, Bool.false_eq_true, if_false]
  · -- by value
    have hap : Apart (as ++ ts) := by
      rw [Apart]
      exact List.Pairwise.imp (S := fun e e' : Expr LB => (e.cat = .xv ∨ e'.cat = .xv) → e.addr ≠ e'.addr) (fun h _ => h) hd2.2
    obtain ⟨ps, m2, g2, hps, hpn, hv⟩ := valueParams_spec (lang Θ moved).toLang ((as ++ ts).drop k) m1
      (fun e he => (hlow e (List.mem_of_mem_drop he)).2.1) (hap.sublist (List.drop_sublist _ _))
    have n2 := g2.next
    have hmov2 : ∀ a, (∃ e ∈ (as ++ ts).drop k, Moves e a) → m.next ≤ a ∧ a ≠ fe.addr := by
      rintro a ⟨e, he, h1, h2, -⟩
      have he := List.mem_of_mem_drop he
      have h3 := (hlow e he).2.2 h2
      refine ⟨by omega, ?_⟩
      have := hd2.1 e he
      intro h; omega
    have hpsf : ∀ p ∈ ps, p.cat = .lv ∧ m1.next ≤ p.addr ∧ p.addr < m2.next := by
      intro p hp
      obtain ⟨e0, -, -, h1, h2, h3, h4, h5, -⟩ := hps.right_mem hp
      exact ⟨h3, h4, h5⟩
    refine ⟨fe, ps, m2, ⟨hfe.1, by omega, ?_, hfl1, hfl2⟩, ⟨?_, ?_, by simp⟩, ?_, ?_, ?_, by rw [g2.world, g1.world, hg0.world], ?_, by omega, ?_, ?_⟩
    · rw [g2.frame _ hfe.2.1 (fun h => (hmov2 _ h).2 rfl), hfe.2.2.1]
    · intro a h1 h2
      rcases Nat.lt_or_ge a m1.next with h | h
      · rw [g2.aliveOld a h, hal1 a h1 h]
      · exact g2.aliveNew a h h2
    · intro _ p hp
      have := hpsf p hp
      omega
    · intro p hp
      have h := hpsf p hp
      have := hfe.2.1
      exact ⟨h.1, by omega, by omega, by omega⟩
    · refine List.Pairwise.imp_of_mem ?_ hpn
      intro x y hx hy h
      exact h (hpsf x hx).2.1 (hpsf y hy).2.1
    · rw [newLvalue_values hps, hvals]
    · exact hk1.trans (Keeps.ofGrows g2) fun a ha h => by have := (hmov2 a h).1; omega
    · intro m'' hfr
      refine ⟨?_, ?_⟩
      · intro s' hs' hemp
        rcases hfl : fel with x | ⟨ty, a⟩
        · have h := hemp ⟨x, hfl⟩
          rw [hfl] at hs
          rw [h, show keep copies s s = s by cases copies <;> rfl]
          exact hs.symm
        · obtain ⟨q1, q2, q3, q4, q5⟩ := hfcell ty a hfl
          rcases copies with _ | _
          · show m''.get a = s'
            rw [CalleeG, if_neg (by simp), hfl, CalleeRef] at hf
            rw [← hs', hf]
          · show m''.get a = s
            rw [hfr a (by omega) (q5 rfl) (by
              intro q hq
              have := hpsf q hq
              omega), g2.frame a (by omega) (fun h => by have := (hmov2 a h).1; omega), q4]
      · intro vs' _ _
        show _ = vs
        apply List.ext_getElem?
        intro i
        rw [List.getElem?_map]
        rcases hi : els[i]? with _ | (x | ⟨ty, a⟩)
        · rw [List.getElem?_eq_none_iff] at hi
          rw [Option.map_none, eq_comm, List.getElem?_eq_none_iff, hvs.1]
          exact hi
        · obtain ⟨y, h1, h2⟩ := hvs.2 i _ hi
          rw [h1, Option.map_some]
          exact congrArg some h2.symm
        · obtain ⟨y, h1, h2⟩ := hvs.2 i _ hi
          obtain ⟨c1, c2, c3, c4, -⟩ := hcells i ty a hi
          rw [h1, Option.map_some]
          refine congrArg some ?_
          show m''.get a = y
          rw [hfr a (by omega) c1 (by
            intro q hq
            have := hpsf q hq
            omega), g2.frame a (by omega) (fun h => by have := (hmov2 a h).1; omega), c4]
          exact h2
    · intro R body
      rw [hcall (Out E R)]
      simp only [paramsG, if_true]
      rw [hv, killRange_killRange _ _ _ _ n1 n2]

/-- Calling an object made with `compressed_tuple{ x } >> lambda`: what the body of the lambda gets, the lambda having `auto` (or `auto &&`)
parameters. -/
theorem frontOneG (Θ : Empties D W E S) (moved : MV D W E S → MV D W E S) (copies byValue : Bool) (l : LamId) (x : MV D W E S) (c : Bool) (cat : Cat)
    (ca : Nat) (args : List (Expr LB)) (m : LMem D W E S) (hlt : ∀ e ∈ args, e.addr < m.next) (hx : Apart args) :
    ∃ p ps m', (p.cat = .lv ∧ m.next ≤ p.addr ∧ p.addr < m'.next ∧ m'.get p.addr = x ∧ m'.alive p.addr = true) ∧
      (∀ q ∈ ps, q.cat = .lv ∧ q.addr < m'.next ∧ q.addr ≠ p.addr ∧ (m.next ≤ q.addr ∨ ∃ e ∈ args, e.addr = q.addr) ∧
        ((∀ e ∈ args, m.alive e.addr = true) → m'.alive q.addr = true)) ∧
      (ps.map fun q => m'.get q.addr) = (args.map fun e => m.get e.addr) ∧ m'.world = m.world ∧
      Keeps (fun a => ∃ e ∈ args, Moves e a) m m' ∧ m.next ≤ (layout (lang Θ moved) [x] m).2.next ∧
      (∀ m'' : LMem D W E S, (∀ a < m'.next, a ≠ p.addr → (∀ q ∈ ps, q.addr ≠ a) → m''.get a = m'.get a) → ∀ x', m''.get p.addr = x' →
        ((lang Θ moved).isEmpty ((lang Θ moved).base x) = true → x' = x) →
        (layout (lang Θ moved) [x] m).1.map (elemVal (lang Θ moved) m'') = [keep byValue x x']) ∧
      ∀ (R : Type) (body : List (Expr LB) → LMem D W E S → Out E R × LMem D W E S),
        (⟨.front, .empty (.lam l), tupleOf (layout (lang Θ moved) [x] m).1 ca, (layout (lang Θ moved) [x] m).1⟩ : Bound LB).callG
          (lang Θ moved).toLang noIdx copies
          (fun _ as m => paramsG (lang Θ moved).toLang byValue body as m) c cat args (layout (lang Θ moved) [x] m).2 =
            .invoked (body (p :: ps) m').1 ((body (p :: ps) m').2.killRange (layout (lang Θ moved) [x] m).2.next m'.next) := by
  obtain ⟨lg, lels, lhold⟩ := layout_spec Θ moved [x] m
  have ln := lg.next
  have hlen : (layout (lang Θ moved) [x] m).1.length = 1 := by simpa using lhold.1.symm
  -- the element
  have hemp : (∃ b, (layout (lang Θ moved) [x] m).1 = [.empty b]) → (lang Θ moved).isEmpty ((lang Θ moved).base x) = true := by
    rintro ⟨b, h⟩
    rw [layout] at h
    split at h
    · assumption
    · simp at h
  rcases byValue with _ | _
  · generalize layout (lang Θ moved) [x] m = L at lg lels lhold ln hlen hemp ⊢
    obtain ⟨els, m1⟩ := L
    simp only at lg lels lhold ln hlen hemp ⊢
    obtain ⟨el, rfl⟩ : ∃ el, els = [el] := List.length_eq_one_iff.1 hlen
    have hel := lels el (by simp)
    have hhold : el.holds (lang Θ moved).toLang m1 x := by
      obtain ⟨y, h1, h2⟩ := lhold.2 0 el rfl
      simp only [List.getElem?_cons_zero, Option.some.injEq] at h1
      exact h1 ▸ h2
    have hobj : ∀ a, el.object = some a → m.next ≤ a ∧ a < m1.next := by
      intro a h
      rcases hel with ⟨b, rfl⟩ | ⟨b, a', rfl, h2, h3⟩
      · simp [Elem.object] at h
      · simp only [Elem.object, Option.some.injEq] at h
        omega
    obtain ⟨fe, ts, as, m2, -, hnew, g1, -, hts, has, hcall⟩ := call_front_exact (lang Θ moved).toLang noIdx
      ⟨.front, .empty (.lam l), tupleOf [el] ca, [el]⟩ rfl c cat args m1 (by
        refine ⟨trivial, tupleOf_constOk _ _ _, ?_⟩
        intro el' hel'
        rw [List.mem_singleton] at hel'
        subst hel'
        rcases hel with ⟨b, rfl⟩ | ⟨b, a, rfl, -⟩
        · trivial
        · exact fun _ => rfl) (fun e _ => ⟨by simp [noIdx], by simp [noIdx]⟩)
      (fun e he => by have := hlt e he; omega) hx.xv
    have hnew := hnew (by
      intro el' hel' ty addr h
      simp only [List.mem_cons, List.not_mem_nil, or_false] at hel'
      rcases hel' with rfl | rfl
      · simp at h
      · exact (hobj addr (by rw [h]; rfl)).2)
    have n1 := g1.next
    have hnm : ∀ a, m.next ≤ a → ¬ ∃ e ∈ args, Moves e a := by
      rintro a ha ⟨e, he, h, -⟩
      have := hlt e he
      omega
    simp only at hts
    obtain ⟨t, rfl⟩ : ∃ t, ts = [t] := List.length_eq_one_iff.1 (by simpa using hts.1)
    have ht : PassedElem (lang Θ moved).toLang m1 m2 (Bound.tupleConst ⟨.front, .empty (.lam l), tupleOf [el] ca, [el]⟩ c) el t := by
      obtain ⟨e, h1, h2⟩ := hts.2 0 el rfl
      simp only [List.getElem?_cons_zero, Option.some.injEq] at h1
      rw [h1]; exact h2
    have htf : m.next ≤ t.addr ∧ t.addr < m2.next ∧ m2.get t.addr = x ∧ (m1.next ≤ t.addr ∧ (∃ b, el = .empty b) ∨ el.object = some t.addr) := by
      rcases el with b | ⟨ty, a⟩
      · obtain ⟨-, -, -, -, q5, q6, q7⟩ := ht
        exact ⟨by omega, q6, by rw [q7]; exact hhold.symm, .inl ⟨q5, _, rfl⟩⟩
      · have ha := hobj a rfl
        rw [PassedElem] at ht
        subst ht
        refine ⟨ha.1, by simp only; omega, ?_, .inr rfl⟩
        simp only
        rw [g1.frame a ha.2 (hnm a ha.1)]
        exact hhold
    have htal : m2.alive t.addr = true := by
      rcases htf.2.2.2 with h | h
      · exact g1.aliveNew _ h.1 htf.2.1
      · rw [g1.aliveOld _ (hobj _ h).2]
        exact lg.aliveNew _ (hobj _ h).1 (hobj _ h).2
    have hasf : ∀ (i : Nat) e, args[i]? = some e → ∃ e', as[i]? = some e' ∧ e'.addr < m2.next ∧ m2.get e'.addr = m.get e.addr ∧
        (m1.next ≤ e'.addr ∨ e'.addr = e.addr) := by
      intro i e hi
      obtain ⟨e', h1, h2⟩ := has.2 i e hi
      have hm := List.mem_of_getElem? hi
      have := hlt e hm
      simp only [Captured] at h2
      rcases hc : e.cat with _ | _ <;> simp only [hc] at h2
      · subst h2
        refine ⟨_, h1, by omega, ?_, .inr rfl⟩
        rw [g1.frame _ (by omega), lg.frame _ this (by simp)]
        rintro ⟨e2, he2, q1, q2, -⟩
        obtain ⟨j, hj, rfl⟩ := List.getElem_of_mem he2
        obtain ⟨hi', rfl⟩ := List.getElem?_eq_some_iff.1 hi
        rw [Apart, List.pairwise_iff_getElem] at hx
        rcases Nat.lt_trichotomy i j with h | h | h
        · exact hx i j hi' hj h (.inr q2) q1.symm
        · subst h; rw [hc] at q2; simp at q2
        · exact hx j i hj hi' h (.inl q2) q1
      · exact ⟨e', h1, h2.2.2.2.2.2.1, by rw [h2.2.2.2.2.2.2, lg.frame _ this (by simp)], .inl h2.2.2.2.2.1⟩
    have hmem : ∀ q ∈ as, ∃ e ∈ args, q.addr < m2.next ∧ (m1.next ≤ q.addr ∨ q.addr = e.addr) := by
      intro q hq
      obtain ⟨i, hi⟩ := List.mem_iff_getElem?.1 hq
      have hil : i < args.length := by have := (List.getElem?_eq_some_iff.1 hi).1; have := has.1; omega
      obtain ⟨e2, h1, h2, h3, h4⟩ := hasf i args[i] (by simp [hil])
      rw [hi, Option.some.injEq] at h1
      subst h1
      exact ⟨args[i], by simp, h2, h4⟩
    have hne : ∀ q ∈ as, q.addr ≠ t.addr := by
      intro q hq heq
      obtain ⟨e, he, h1, h2⟩ := hmem q hq
      have := hlt e he
      rcases h2 with h2 | h2
      · rcases htf.2.2.2 with h | h
        · rw [NewApart, List.pairwise_cons] at hnew
          have hnew := hnew.2
          simp only [List.singleton_append, List.pairwise_cons] at hnew
          exact hnew.1 q hq h.1 h2 heq.symm
        · have := (hobj _ h).2; omega
      · omega
    refine ⟨t.named, as.map Expr.named, m2, ⟨rfl, htf.1, htf.2.1, htf.2.2.1, htal⟩, ?_, ?_, by rw [g1.world, lg.world], ?_, ln, ?_, ?_⟩
    · intro q hq
      obtain ⟨e', he', rfl⟩ := List.mem_map.1 hq
      obtain ⟨e, he, h1, h2⟩ := hmem e' he'
      refine ⟨rfl, h1, hne e' he', ?_, ?_⟩
      · rcases h2 with h2 | h2
        · exact .inl (by show m.next ≤ e'.addr; omega)
        · exact .inr ⟨e, he, h2.symm⟩
      · intro hal
        show m2.alive e'.addr = true
        rcases h2 with h2 | h2
        · exact g1.aliveNew _ h2 h1
        · have := hlt e he
          rw [h2, g1.aliveOld _ (by omega), lg.aliveOld _ this, hal e he]
    · apply List.ext_getElem?
      intro i
      rw [List.map_map, List.getElem?_map, List.getElem?_map]
      rcases hi : args[i]? with _ | e
      · rw [List.getElem?_eq_none_iff] at hi
        rw [List.getElem?_eq_none (by have := has.1; omega)]
        rfl
      · obtain ⟨e', h1, -, h2, -⟩ := hasf i e hi
        rw [h1, Option.map_some, Option.map_some]
        exact congrArg some h2
    · exact ((Keeps.ofGrows lg).mono (fun _ _ h => h.elim)).trans (Keeps.ofGrows g1) fun _ _ h => h
    · intro m'' _ x' hx' he
      show [elemVal (lang Θ moved) m'' el] = [x']
      rcases el with b | ⟨ty, a⟩
      · rw [he (hemp ⟨b, rfl⟩)]
        exact congrArg (fun z => [z]) hhold.symm
      · rw [PassedElem] at ht
        rw [← hx', ht]
        rfl
    · intro R body
      rw [callG_front _ _ _ _ _ rfl, hcall (Out E R)]
      simp only [paramsG, Bool.false_eq_true, if_false]
      rfl
  · obtain ⟨p, ps, m', ⟨p1, p2, p3, p4, p5, p6, p7⟩, hps, hpv, hw, hk, hold, hcall⟩ := frontOne (E := E) Θ moved l x c cat ca args m hlt hx
    refine ⟨p, ps, m', ⟨p3, by omega, p5, p6, p7⟩, ?_, hpv, hw, hk, ln, ?_, ?_⟩
    · intro q hq
      obtain ⟨q1, q2, q3, q4, q5, q6, q7⟩ := hps q hq
      exact ⟨q3, q5, q6, .inl (by omega), fun _ => q7⟩
    · intro m'' hfr x' hx' he
      have := elemVals_eq (holdAll_later (m' := m'') lhold lels (by
        intro a h1 h2
        rw [hfr a (by omega) (by omega) (by
          intro q hq
          have := (hps q hq).2.2.2.1
          omega), hold a h1 h2]))
      rw [this]
      rfl
    · intro R body
      rw [callG_front _ _ _ _ _ rfl]
      simp only [paramsG, if_true]
      exact hcall R body

end Pigro.LM
