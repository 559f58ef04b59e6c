import Verif.Model.LazyMem
import Verif.Proofs.ByValue
import Verif.Proofs.Fresh
/-!
# The memory-level program does what `Glue.asWritten` says
-/
namespace Pigro.LM
open Cxx
variable {D W E S : Type}

/-! ### Memory -/

/-- `m'` comes after `m`: objects of `m` keep their values, except those in `X`, and nothing of `m` begins or ends its lifetime. -/
structure Keeps {V L : Type} (X : Nat → Prop) (m m' : Mem V L) : Prop where
  next : m.next ≤ m'.next
  frame : ∀ a < m.next, ¬ X a → m'.get a = m.get a
  alive : ∀ a < m.next, m'.alive a = m.alive a

section
variable {V L : Type} {X Y : Nat → Prop} {m m1 m2 : Mem V L}

theorem Keeps.refl (X : Nat → Prop) (m : Mem V L) : Keeps X m m := ⟨Nat.le_refl _, fun _ _ _ => rfl, fun _ _ => rfl⟩

theorem Keeps.ofGrows (h : Grows X m m1) : Keeps X m m1 := ⟨h.next, h.frame, h.aliveOld⟩

theorem Keeps.trans (h1 : Keeps X m m1) (h2 : Keeps Y m1 m2) (hXY : ∀ a < m.next, Y a → X a) : Keeps X m m2 where
  next := Nat.le_trans h1.next h2.next
  frame := fun a ha hX => by
    have := h1.next
    rw [h2.frame a (by omega) (fun h => hX (hXY a ha h)), h1.frame a ha hX]
  alive := fun a ha => by
    have := h1.next
    rw [h2.alive a (by omega), h1.alive a ha]

theorem Keeps.mono (h : Keeps X m m1) (hXY : ∀ a < m.next, X a → Y a) : Keeps Y m m1 :=
  ⟨h.next, fun a ha hY => h.frame a ha fun hX => hY (hXY a ha hX), h.alive⟩

theorem Keeps.killRange (h : Keeps X m m1) (lo hi : Nat) (hlo : m.next ≤ lo) : Keeps X m (m1.killRange lo hi) where
  next := h.next
  frame := h.frame
  alive := fun a ha => by
    simp only [Mem.killRange]
    rw [h.alive a ha, decide_eq_false (by omega)]
    simp

theorem Keeps.kill (h : Keeps X m m1) (b : Nat) (hb : m.next ≤ b) : Keeps X m (m1.kill b) where
  next := h.next
  frame := h.frame
  alive := fun a ha => by
    simp only [Mem.kill]
    rw [h.alive a ha, decide_eq_false (by omega)]
    simp

theorem Keeps.write (h : Keeps X m m1) (b : Nat) (x : V) (hb : m.next ≤ b ∨ X b ∨ x = m.get b) : Keeps X m (m1.write b x) where
  next := h.next
  frame := fun a ha hX => by
    simp only [Mem.write]
    by_cases hab : a = b
    · subst hab
      rw [if_pos rfl]
      rcases hb with hb | hb | hb
      · omega
      · exact absurd hb hX
      · exact hb
    · rw [if_neg hab, h.frame a ha hX]
  alive := h.alive

theorem Keeps.alloc (h : Keeps X m m1) (x : V) : Keeps X m (m1.alloc x) where
  next := by have := h.next; simp only [Mem.alloc]; omega
  frame := fun a ha hX => by
    have := h.next
    simp only [Mem.alloc]
    rw [if_neg (by omega), h.frame a ha hX]
  alive := fun a ha => by
    have := h.next
    simp only [Mem.alloc]
    rw [decide_eq_false (by omega), h.alive a ha, Bool.false_or]

theorem Keeps.setWorld (h : Keeps X m m1) (w : L) : Keeps X m ({ m1 with world := w } : Mem V L) :=
  ⟨h.next, h.frame, h.alive⟩

theorem alloc_get (m : Mem V L) (x : V) : (m.alloc x).get m.next = x := by simp [Mem.alloc]
theorem alloc_next (m : Mem V L) (x : V) : (m.alloc x).next = m.next + 1 := rfl
theorem alloc_alive (m : Mem V L) (x : V) : (m.alloc x).alive m.next = true := by simp [Mem.alloc]

theorem killRange_dead (m : Mem V L) (lo hi a : Nat) (h1 : lo ≤ a) (h2 : a < hi) : (m.killRange lo hi).alive a = false := by
  simp [Mem.killRange, h1, h2]

end

/-- Members in cells of their own. -/
theorem placeAll_spec : ∀ (xs : List (LB × MV D W E S)) (m : LMem D W E S),
    Grows (fun _ => False) m (placeAll xs m).2 ∧ (placeAll xs m).2.next = m.next + xs.length ∧
      (placeAll xs m).1 = xs.zipIdx.map (fun p => Elem.stored ⟨p.1.1, false, false, .none⟩ (m.next + p.2)) ∧
      ∀ (i : Nat) x, xs[i]? = some x → (placeAll xs m).2.get (m.next + i) = x.2
  | [], m => ⟨Grows.refl _ _, rfl, rfl, by simp⟩
  | x :: xs, m => by
    obtain ⟨g, n, e, v⟩ := placeAll_spec xs (m.alloc x.2)
    have ga := Grows.alloc (fun _ => False) m x.2
    rw [alloc_next] at n e v
    refine ⟨ga.trans g, ?_, ?_, ?_⟩
    · simp only [placeAll, List.length_cons]
      omega
    · simp only [placeAll, e, List.zipIdx_cons, List.map_cons, Nat.add_zero, List.cons.injEq, true_and]
      rw [Nat.zero_add, List.zipIdx_succ, List.map_map]
      apply List.map_congr_left
      intro p _
      simp only [Function.comp]
      congr 1
      omega
    · intro i y hi
      rcases i with _ | i
      · simp only [List.getElem?_cons_zero, Option.some.injEq] at hi
        subst hi
        simp only [placeAll, Nat.add_zero]
        rw [g.frame _ (by rw [alloc_next]; omega) (by simp), alloc_get]
      · simp only [placeAll]
        have := v i y (by simpa using hi)
        rw [← this]
        congr 1
        omega

/-- An object of empty type is the one of that type. -/
theorem base_empty (Θ : Empties D W E S) (moved : MV D W E S → MV D W E S) (x : MV D W E S)
    (h : (lang Θ moved).isEmpty ((lang Θ moved).base x) = true) : x = (lang Θ moved).emptyVal ((lang Θ moved).base x) := by
  have hf := Θ.fn_one
  have hv := Θ.val_one
  simp only [lang] at h ⊢
  rcases x with ⟨_ | _ | _ | _⟩ | ⟨_ | _⟩ | _ | _ | _ | _ | _ <;> simp only [Empties.base] at h ⊢ <;> try split at h
  all_goals first
    | (rename_i k hk; simp only [Empties.value, hf _ _ hk, Option.map_some, Option.getD_some]; done)
    | (rename_i k hk; simp only [Empties.value, hv _ _ hk, Option.map_some, Option.getD_some]; done)
    | (simp [LB.isEmpty] at h; done)
    | rfl

/-- The elements of a compressed tuple, laid out. -/
theorem layout_spec (Θ : Empties D W E S) (moved : MV D W E S → MV D W E S) : ∀ (xs : List (MV D W E S)) (m : LMem D W E S),
    Grows (fun _ => False) m (layout (lang Θ moved) xs m).2 ∧
      (∀ el ∈ (layout (lang Θ moved) xs m).1, (∃ b, el = .empty b) ∨
        ∃ b a, el = .stored ⟨b, false, false, .none⟩ a ∧ m.next ≤ a ∧ a < (layout (lang Θ moved) xs m).2.next) ∧
      HoldAll (lang Θ moved).toLang (layout (lang Θ moved) xs m).2 (layout (lang Θ moved) xs m).1 xs
  | [], m => ⟨Grows.refl _ _, by simp [layout], ⟨rfl, by simp [layout]⟩⟩
  | x :: xs, m => by
    have cons : ∀ {m' : LMem D W E S} {el : Elem LB} {els : List (Elem LB)}, el.holds (lang Θ moved).toLang m' x →
        HoldAll (lang Θ moved).toLang m' els xs → HoldAll (lang Θ moved).toLang m' (el :: els) (x :: xs) := by
      intro m' el els h1 h2
      refine ⟨by simp [h2.1], ?_⟩
      intro i e hi
      rcases i with _ | i
      · simp only [List.getElem?_cons_zero, Option.some.injEq] at hi
        exact ⟨x, rfl, hi ▸ h1⟩
      · simpa using h2.2 i e (by simpa using hi)
    rw [layout]
    split
    · rename_i hemp
      obtain ⟨g, h, v⟩ := layout_spec Θ moved xs m
      refine ⟨g, ?_, cons (base_empty Θ moved x hemp) v⟩
      intro el hel
      rcases List.mem_cons.1 hel with rfl | hel
      · exact .inl ⟨_, rfl⟩
      · exact h el hel
    · obtain ⟨g, h, v⟩ := layout_spec Θ moved xs (m.alloc x)
      have ga := Grows.alloc (fun _ => False) m x
      have hn := g.next
      rw [alloc_next] at hn
      refine ⟨ga.trans g, ?_, cons ?_ v⟩
      · intro el hel
        rcases List.mem_cons.1 hel with rfl | hel
        · exact .inr ⟨_, _, rfl, Nat.le_refl _, by simp only; omega⟩
        · rcases h el hel with h | ⟨b, a, h1, h2, h3⟩
          · exact .inl h
          · rw [alloc_next] at h2
            exact .inr ⟨b, a, h1, by omega, h3⟩
      · show (layout (lang Θ moved) xs (m.alloc x)).2.get m.next = x
        rw [g.frame _ (by rw [alloc_next]; omega) (by simp), alloc_get]

/-- The elements hold the same values as long as their cells do. -/
theorem holdAll_later {Θ : Empties D W E S} {moved : MV D W E S → MV D W E S} {els : List (Elem LB)} {xs : List (MV D W E S)}
    {m0 m m' : LMem D W E S} (h : HoldAll (lang Θ moved).toLang m els xs)
    (hels : ∀ el ∈ els, (∃ b, el = .empty b) ∨ ∃ b a, el = .stored ⟨b, false, false, .none⟩ a ∧ m0.next ≤ a ∧ a < m.next)
    (hold : ∀ a, m0.next ≤ a → a < m.next → m'.get a = m.get a) : HoldAll (lang Θ moved).toLang m' els xs := by
  refine ⟨h.1, ?_⟩
  intro i el hi
  obtain ⟨x, h1, h2⟩ := h.2 i el hi
  refine ⟨x, h1, ?_⟩
  rcases hels el (List.mem_of_getElem? hi) with ⟨b, rfl⟩ | ⟨b, a, rfl, ha, hb⟩
  · exact h2
  · show m'.get a = x
    rw [hold a ha hb]
    exact h2

theorem elemVal_eq {Λ : LLang D W E S} {m : LMem D W E S} {el : Elem LB} {x : MV D W E S} (h : el.holds Λ.toLang m x) : elemVal Λ m el = x := by
  cases el
  · exact h.symm
  · exact h

theorem elemVals_eq {Λ : LLang D W E S} {m : LMem D W E S} {els : List (Elem LB)} {xs : List (MV D W E S)} (h : HoldAll Λ.toLang m els xs) :
    els.map (elemVal Λ m) = xs := by
  apply List.ext_getElem?
  intro i
  rw [List.getElem?_map]
  rcases hi : els[i]? with _ | el
  · rw [List.getElem?_eq_none_iff] at hi
    rw [Option.map_none, eq_comm, List.getElem?_eq_none_iff, h.1]
    exact hi
  · obtain ⟨x, h1, h2⟩ := h.2 i el hi
    rw [h1, Option.map_some, elemVal_eq h2]

theorem tupleOf_constOk (els : List (Elem LB)) (a : Nat) (c : Bool) : (tupleOf els a).constOk c := by
  rw [tupleOf]
  split
  · trivial
  · exact fun _ => rfl

/-- The result of calling a bound callable, the object `y`, that does not change its members. -/
theorem callBound_eq {R : Type} {Λ : LLang D W E S} {b : Bound LB} {code : LCode D W E S R}
    {mk : MV D W E S → List (MV D W E S) → Option (MV D W E S)} {callee : Expr LB} {args : List (Expr LB)} {m0 m : LMem D W E S}
    {o : Out E R} {mb : LMem D W E S} {lo hi : Nat} {s y : MV D W E S} {xs : List (MV D W E S)}
    (hc : b.call Λ.toLang noIdx code callee.c callee.cat args m = .invoked o (mb.killRange lo hi))
    (hs : b.f.holds Λ.toLang mb s) (hxs : HoldAll Λ.toLang mb b.els xs) (hmk : mk s xs = some y) :
    callBound Λ b code mk callee args m0 m = (o, (mb.killRange lo hi).write callee.addr y) := by
  have h1 : elemVal Λ (mb.killRange lo hi) b.f = s := by
    rw [← elemVal_eq hs]
    cases b.f <;> rfl
  have h2 : b.els.map (elemVal Λ (mb.killRange lo hi)) = xs := by
    rw [← elemVals_eq hxs]
    apply List.map_congr_left
    intro el _
    cases el <;> rfl
  simp only [callBound, hc, h1, h2, hmk, Option.getD_some]

theorem apart_of_lv {B : Type} {es : List (Expr B)} (h : ∀ e ∈ es, e.cat = .lv) : Apart es := by
  rw [Apart, List.pairwise_iff_forall_sublist]
  intro a b hab hc
  have h1 := h a (hab.subset (by simp))
  have h2 := h b (hab.subset (by simp))
  rw [h1, h2] at hc
  simp at hc

theorem not_moves_lv {B : Type} {es : List (Expr B)} (h : ∀ e ∈ es, e.cat = .lv) (a : Nat) : ¬ ∃ e ∈ es, Moves e a := by
  rintro ⟨e, he, -, h2, -⟩
  rw [h e he] at h2
  simp at h2

/-- Calling an object made with `compressed_tuple{ x } >> lambda`, the lambda having by-value parameters: what its body gets. -/
theorem frontOne (Θ : Empties D W E S) (moved : MV D W E S → MV D W E S) (l : LamId) (x : MV D W E S) (c : Bool) (cat : Cat) (ca : Nat)
    (args : List (Expr LB)) (m : LMem D W E S) (hlt : ∀ e ∈ args, e.addr < m.next) (hx : Apart args) :
    ∃ p ps m', (p.c = false ∧ p.v = false ∧ p.cat = .lv ∧ (layout (lang Θ moved) [x] m).2.next ≤ p.addr ∧ p.addr < m'.next ∧
        m'.get p.addr = x ∧ m'.alive p.addr = true) ∧
      (∀ q ∈ ps, q.c = false ∧ q.v = false ∧ q.cat = .lv ∧ (layout (lang Θ moved) [x] m).2.next ≤ q.addr ∧ q.addr < m'.next ∧
        q.addr ≠ p.addr ∧ m'.alive q.addr = true) ∧
      (ps.map fun q => m'.get q.addr) = (args.map fun e => m.get e.addr) ∧ m'.world = m.world ∧
      Keeps (fun a => ∃ e ∈ args, Moves e a) m m' ∧
      (∀ a, m.next ≤ a → a < (layout (lang Θ moved) [x] m).2.next → m'.get a = (layout (lang Θ moved) [x] m).2.get a) ∧
      ∀ (R : Type) (body : List (Expr LB) → LMem D W E S → Out E R × LMem D W E S),
        (⟨.front, .empty (.lam l), tupleOf (layout (lang Θ moved) [x] m).1 ca, (layout (lang Θ moved) [x] m).1⟩ : Bound LB).call
          (lang Θ moved).toLang noIdx
          (fun _ as m => valueParams (lang Θ moved).toLang body as m) c cat args (layout (lang Θ moved) [x] m).2 =
            .invoked (body (p :: ps) m').1 ((body (p :: ps) m').2.killRange (layout (lang Θ moved) [x] m).2.next m'.next) := by
  obtain ⟨lg, lels, lhold⟩ := layout_spec Θ moved [x] m
  generalize layout (lang Θ moved) [x] m = L at lg lels lhold ⊢
  obtain ⟨els, m1⟩ := L
  simp only at lg lels lhold ⊢
  obtain ⟨el, rfl⟩ : ∃ el, els = [el] := List.length_eq_one_iff.1 (by simpa using lhold.1.symm)
  have hel := lels el (by simp)
  have hhold : el.holds (lang Θ moved).toLang m1 x := by
    obtain ⟨y, h1, h2⟩ := lhold.2 0 el rfl
    simp only [List.getElem?_cons_zero, Option.some.injEq] at h1
    exact h1 ▸ h2
  have ln := lg.next
  obtain ⟨p, ps, m', hp, hps, hnew, hg, hcall⟩ := boundByValue_call (lang Θ moved).toLang noIdx
    ⟨.front, .empty (.lam l), tupleOf [el] ca, [el]⟩ rfl el rfl x m1 hhold (by
      intro el' hel' ty addr h
      simp only [List.mem_cons, List.not_mem_nil, or_false] at hel'
      rcases hel' with rfl | rfl
      · simp at h
      · rcases hel with ⟨b, rfl⟩ | ⟨b, a, rfl, -, h2⟩
        · simp at h
        · simp only [Elem.stored.injEq] at h
          omega) c (by
      refine ⟨trivial, tupleOf_constOk _ _ _, ?_⟩
      intro el' hel'
      rw [List.mem_singleton] at hel'
      subst hel'
      rcases hel with ⟨b, rfl⟩ | ⟨b, a, rfl, -⟩
      · trivial
      · exact fun _ => rfl) cat args (fun e _ => ⟨by simp [noIdx], by simp [noIdx]⟩)
    (fun e he => by have := hlt e he; omega) hx
    (fun e he _ h => by
      have := hlt e he
      rcases hel with ⟨b, rfl⟩ | ⟨b, a, rfl, h2, -⟩
      · simp [Elem.object] at h
      · simp only [Elem.object, Option.some.injEq] at h
        omega)
  have hn := hg.next
  have hnm : ∀ a, m.next ≤ a → ¬ ∃ e ∈ args, Moves e a := by
    rintro a ha ⟨e, he, h, -⟩
    have := hlt e he
    omega
  refine ⟨p, ps, m', ⟨hp.2.1, hp.2.2.1, hp.2.2.2.1, hp.2.2.2.2.1, hp.2.2.2.2.2.1, hp.2.2.2.2.2.2,
    hg.aliveNew _ hp.2.2.2.2.1 hp.2.2.2.2.2.1⟩, ?_, ?_, by rw [hg.world, lg.world], ?_, ?_, ?_⟩
  · intro q hq
    obtain ⟨e0, -, -, h1, h2, h3, h4, h5, -⟩ := hps.right_mem hq
    rw [NewApart, List.pairwise_cons] at hnew
    exact ⟨h1, h2, h3, h4, h5, fun h => hnew.1 q hq hp.2.2.2.2.1 h4 h.symm, hg.aliveNew _ h4 h5⟩
  · rw [newLvalue_values hps]
    apply List.map_congr_left
    intro e he
    exact lg.frame _ (hlt e he) (by simp)
  · exact ((Keeps.ofGrows lg).mono (fun _ _ h => h.elim)).trans (Keeps.ofGrows hg) fun _ _ h => h
  · intro a h1 h2
    exact hg.frame a h2 (hnm a h1)
  · intro R body
    exact hcall _ body

/-- Calling an object made with `compressed_tuple{ xs... } << lambda`, the lambda having by-value parameters after the first `k`: what its body
gets. `m0` is the memory before the members (and the closure) were laid out. -/
theorem backCall (Θ : Empties D W E S) (moved : MV D W E S → MV D W E S) (fel t : Elem LB) (els : List (Elem LB)) (c : Bool) (cat : Cat) (ht : t.constOk c)
    (args : List (Expr LB)) (m0 m : LMem D W E S) (hg0 : Grows (fun _ => False) m0 m) (s : MV D W E S) (vs : List (MV D W E S))
    (hels : ∀ el ∈ fel :: els, (∃ b, el = .empty b) ∨ ∃ b a, el = .stored ⟨b, false, false, .none⟩ a ∧ m0.next ≤ a ∧ a < m.next)
    (hs : fel.holds (lang Θ moved) m s) (hvs : HoldAll (lang Θ moved) m els vs)
    (hlt : ∀ e ∈ args, e.addr < m0.next) (hx : Apart args) (k : Nat) (hk : k ≤ args.length) :
    ∃ fe ps m', m.next ≤ fe.addr ∧ fe.addr < m'.next ∧ m'.get fe.addr = s ∧
      (∀ q ∈ ps, q.c = false ∧ q.v = false ∧ q.cat = .lv ∧ m.next ≤ q.addr ∧ q.addr < m'.next ∧ q.addr ≠ fe.addr) ∧
      (ps.Pairwise fun x y => x.addr ≠ y.addr) ∧
      (ps.map fun q => m'.get q.addr) = ((args.drop k).map fun e => m0.get e.addr) ++ vs ∧ m'.world = m0.world ∧
      Keeps (fun a => ∃ e ∈ args, Moves e a) m0 m' ∧ (∀ a, m0.next ≤ a → a < m.next → m'.get a = m.get a) ∧
      (∀ a, m0.next ≤ a → a < m'.next → m'.alive a = true) ∧
      ∀ (R : Type) (body : Expr LB → List (Expr LB) → LMem D W E S → Out E R × LMem D W E S),
        (⟨.back, fel, t, els⟩ : Bound LB).call (lang Θ moved).toLang noIdx
          (fun callee as m => valueParams (lang Θ moved) (body callee) (as.drop k) m) c cat args m =
            .invoked (body fe ps m').1 ((body fe ps m').2.killRange m.next m'.next) := by
  have hn0 := hg0.next
  have hok : ∀ c' el, el ∈ fel :: els → el.constOk c' := by
    intro c' el hel
    rcases hels el hel with ⟨b, rfl⟩ | ⟨b, a, rfl, -⟩
    · trivial
    · exact fun _ => rfl
  obtain ⟨fe, ps, m', f1, f2, f3, hps, hpw, hpv, hg, hcall⟩ := backByValue_call (lang Θ moved) noIdx
    ⟨.back, fel, t, els⟩ rfl c cat args m
    ⟨hok c _ (by simp), ht, fun el hel => hok _ _ (by simp [hel])⟩ (by
      intro el hel ty addr h
      rcases hels el hel with ⟨b, rfl⟩ | ⟨b, a, rfl, -, h2⟩
      · simp at h
      · simp only [Elem.stored.injEq] at h
        omega) (fun e _ => ⟨by simp [noIdx], by simp [noIdx]⟩)
    (fun e he => by have := hlt e he; omega) hx s hs vs hvs
    (fun e he _ el hel h => by
      have := hlt e he
      rcases hels el (by simp [hel]) with ⟨b, rfl⟩ | ⟨b, a, rfl, h2, -⟩
      · simp [Elem.object] at h
      · simp only [Elem.object, Option.some.injEq] at h
        omega) k hk
  have hnm : ∀ a, m0.next ≤ a → ¬ ∃ e ∈ args, Moves e a := by
    rintro a ha ⟨e, he, h, -⟩
    have := hlt e he
    omega
  refine ⟨fe, ps, m', f1, f2, f3, hps, hpw, ?_, by rw [hg.world, hg0.world], ?_, ?_, ?_, fun R body => hcall _ body⟩
  · rw [hpv]
    congr 1
    apply List.map_congr_left
    intro e he
    exact hg0.frame _ (hlt e (List.mem_of_mem_drop he)) (by simp)
  · exact ((Keeps.ofGrows hg0).mono (fun _ _ h => h.elim)).trans (Keeps.ofGrows hg) fun _ _ h => h
  · intro a h1 h2
    exact hg.frame a h2 (hnm a h1)
  · intro a h1 h2
    by_cases h : a < m.next
    · rw [hg.aliveOld a h]; exact hg0.aliveNew a h1 h
    · exact hg.aliveNew a (by omega) h2

theorem length_two {α : Type} {l : List α} (h : l.length = 2) : ∃ a b, l = [a, b] := by
  rcases l with _ | ⟨a, _ | ⟨b, _ | ⟨c, l⟩⟩⟩ <;> simp at h
  exact ⟨a, b, rfl⟩

/-! ### Function objects -/

theorem look_eq {m : LMem D W E S} {a : Nat} {x : MV D W E S} (ha : m.alive a = true) (h : m.get a = x) : look m a = x := by
  simp [look, ha, h]

theorem readArgs_eq (m : LMem D W E S) : ∀ (es : List (Expr LB)) (vs : List (Val D)),
    (es.map fun e => m.get e.addr) = vs.map .val → (∀ e ∈ es, m.alive e.addr = true) → readArgs m es = some vs
  | [], [], _, _ => rfl
  | [], _ :: _, h, _ => by simp at h
  | _ :: _, [], h, _ => by simp at h
  | e :: es, v :: vs, h, ha => by
    simp only [List.map_cons, List.cons.injEq] at h
    rw [readArgs, look_eq (ha e (by simp)) h.1, readArgs_eq m es vs h.2 fun e' h' => ha e' (by simp [h'])]

/-- What a call of a user function returns, in the terms of `Model/Lazy.lean`. -/
def userOut (u : UFn D W E S) : Except E (Val D) → Out E (Val D)
  | .ok v => .ok (u.ret.regularize v)
  | .error e => .thrown e

theorem userCode_spec (k : Kind) (callee : Expr LB) (args : List (Expr LB)) (m : LMem D W E S) (u : UFn D W E S) (vs : List (Val D))
    (hu : m.get callee.addr = .user u) (hl : m.alive callee.addr = true) (ha : readArgs m args = some vs) :
    (userCode k callee args m).1 = userOut u (u.invoke k vs m.world).1 ∧
      (userCode k callee args m).2.world = (u.invoke k vs m.world).2.2 ∧
      Keeps (· = callee.addr) m (userCode k callee args m).2 := by
  simp only [userCode, look_eq hl hu, ha]
  rcases hi : u.invoke k vs m.world with ⟨_ | _, u', env'⟩
  · exact ⟨rfl, rfl, ((Keeps.refl _ m).setWorld _).write _ _ (.inr (.inl rfl))⟩
  · exact ⟨rfl, rfl, ((Keeps.refl _ m).setWorld _).write _ _ (.inr (.inl rfl))⟩

/-- The pinned code, with or without the deduction guide of lazy.h:23-24. -/
def written (byRef : Bool) : Glue := { Glue.asWritten with resultByRef := byRef }

theorem call_regularized (byRef : Bool) (u : UFn D W E S) (vs : List (Val D)) (env : Env D W S) :
    Fun.call (written byRef) (.regularized u) vs env =
      (userOut u (u.invoke .fn vs env).1, .regularized u, (u.invoke .fn vs env).2.2) := by
  rcases hi : u.invoke .fn vs env with ⟨_ | _, u', env'⟩ <;> simp [Fun.call, hi, userOut, written, Glue.asWritten]

theorem call_wrapDep (byRef : Bool) (u : UFn D W E S) (vs : List (Val D)) (env : Env D W S) :
    Fun.call (written byRef) (.wrapDep u) vs env =
      (userOut u (u.invoke .dep [] env).1, .wrapDep u, (u.invoke .dep [] env).2.2) := by
  rcases hi : u.invoke .dep [] env with ⟨_ | _, u', env'⟩ <;> simp [Fun.call, hi, userOut, written, Glue.asWritten]

/-- Calling the `f` of `detail::lazy`. -/
theorem funCode_spec (Θ : Empties D W E S) (moved : MV D W E S → MV D W E S) (byRef : Bool) (f : Fun D W E S) (callee : Expr LB) (args : List (Expr LB))
    (vs : List (Val D)) (m : LMem D W E S) (hf : m.get callee.addr = .func f) (hl : m.alive callee.addr = true)
    (hargs : ∀ e ∈ args, e.cat = .lv ∧ e.addr < m.next) (hvs : (args.map fun e => m.get e.addr) = vs.map .val)
    (hone : ∀ u, f = .wrapDep u → vs.length = 1) :
    (funCode (lang Θ moved) (funSh f) callee args m).1 = (f.call (written byRef) vs m.world).1 ∧
      (funCode (lang Θ moved) (funSh f) callee args m).2.world = (f.call (written byRef) vs m.world).2.2 ∧
      (f.call (written byRef) vs m.world).2.1 = f ∧
      Keeps (fun _ => False) m (funCode (lang Θ moved) (funSh f) callee args m).2 := by
  have hlv : ∀ e ∈ args, e.cat = .lv := fun e he => (hargs e he).1
  rcases f with u | u
  · obtain ⟨p, ps, m', ⟨p1, p2, p3, p4, p5, p6, p7⟩, hps, hpv, hw, hk, hold, hcall⟩ := frontOne (E := E) Θ moved .regularize (.user u) callee.c
      callee.cat callee.addr args m (fun e he => (hargs e he).2) (apart_of_lv hlv)
    obtain ⟨lg, lels, lhold⟩ := layout_spec Θ moved [.user u] m
    have hra : readArgs m' ps = some vs := readArgs_eq _ _ _ (by rw [hpv, hvs]) fun q hq => (hps q hq).2.2.2.2.2.2
    obtain ⟨h1, h2, h3⟩ := userCode_spec .fn p ps m' u vs p6 p7 hra
    have ln := lg.next
    have hk2 : Keeps (fun _ => False) m (userCode .fn p ps m').2 :=
      (hk.mono fun a _ h => not_moves_lv hlv a h).trans h3 fun a ha h => by omega
    have hc := hcall (Val D) (ending fun ps m => match ps with
      | f :: args => userCode .fn f args m
      | [] => (.illFormed, m))
    have he : funCode (lang Θ moved) (funSh (.regularized u)) callee args m = ((userCode .fn p ps m').1,
        (((userCode .fn p ps m').2.killRange m'.next (userCode .fn p ps m').2.next).killRange (layout (lang Θ moved) [.user u] m).2.next m'.next).write callee.addr (.func (.regularized u))) := by
      simp only [funSh, funCode, look_eq hl hf]
      exact callBound_eq (s := .unit) hc rfl (holdAll_later lhold lels fun a ha hb => by
        show (userCode .fn p ps m').2.get a = _
        rw [h3.frame a (by omega) (by omega), hold a ha hb]) rfl
    rw [call_regularized, he]
    exact ⟨by rw [h1, hw], by rw [← hw]; exact h2, rfl, Keeps.write ((hk2.killRange _ _ (by have := hk.next; omega)).killRange _ _ ln) _ _ (.inr (.inr hf.symm))⟩
  · obtain ⟨e, rfl⟩ : ∃ e, args = [e] := by
      have h1 := hone u rfl
      have h2 := congrArg List.length hvs
      simp only [List.length_map, h1] at h2
      exact List.length_eq_one_iff.1 h2
    obtain ⟨lg, lels, lhold⟩ := layout_spec Θ moved [.user u] m
    have ln := lg.next
    obtain ⟨fe, ps, m', f1, f2, f3, hps, hpw, hpv, hw, hk, hold, hal, hcall⟩ := backCall (E := E) Θ moved (.empty (.lam .poll))
      (tupleOf (layout (lang Θ moved) [.user u] m).1 callee.addr) (layout (lang Θ moved) [.user u] m).1 callee.c callee.cat
      (tupleOf_constOk _ _ _) [e] m (layout (lang Θ moved) [.user u] m).2 lg .unit [.user u] (by
        intro el hel
        rcases List.mem_cons.1 hel with rfl | hel
        · exact .inl ⟨_, rfl⟩
        · exact lels el hel) rfl lhold (fun e he => (hargs e he).2) (apart_of_lv hlv) 0 (by simp)
    simp only [List.drop_zero, List.map_cons, List.map_nil, List.cons_append, List.nil_append] at hpv
    obtain ⟨a, d, rfl⟩ : ∃ a d, ps = [a, d] := by
      exact length_two (by simpa using congrArg List.length hpv)
    simp only [List.map_cons, List.map_nil, List.cons.injEq, and_true] at hpv
    obtain ⟨d1, d2, d3, d4, d5, d6⟩ := hps d (by simp)
    obtain ⟨h1, h2, h3⟩ := userCode_spec .dep d [] m' u [] hpv.2 (hal _ (by omega) d5) rfl
    have hk2 : Keeps (fun _ => False) m (userCode .dep d [] m').2 :=
      (hk.mono fun a _ h => not_moves_lv hlv a h).trans h3 fun a ha h => by omega
    have hc := hcall (Val D) (fun _ => ending fun ps m => match ps with
      | [_, dep] => userCode .dep dep [] m
      | _ => (.illFormed, m))
    have he : funCode (lang Θ moved) (funSh (.wrapDep u)) callee [e] m = ((userCode .dep d [] m').1,
        (((userCode .dep d [] m').2.killRange m'.next (userCode .dep d [] m').2.next).killRange (layout (lang Θ moved) [.user u] m).2.next m'.next).write callee.addr (.func (.wrapDep u))) := by
      simp only [funSh, funCode, look_eq hl hf]
      exact callBound_eq (s := .unit) hc rfl (holdAll_later lhold lels fun a ha hb => by
        show (userCode .dep d [] m').2.get a = _
        rw [h3.frame a (by omega) (by omega), hold a ha hb]) rfl
    rw [call_wrapDep, he]
    exact ⟨by rw [h1, hw], by rw [← hw]; exact h2, rfl, Keeps.write ((hk2.killRange _ _ (by have := hk.next; omega)).killRange _ _ ln) _ _ (.inr (.inr hf.symm))⟩

/-! ### Results -/

/-- Corresponding outcomes. -/
def OutRel {α β : Type} (P : α → β → Prop) : Out E α → Out E β → Prop
  | .ok a, .ok b => P a b
  | .thrown e, .thrown e' => e = e'
  | .ub, .ub => True
  | .illFormed, .illFormed => True
  | _, _ => False

/-- Corresponding lists. -/
def Rel2 {α β : Type} (P : α → β → Prop) : List α → List β → Prop
  | [], [] => True
  | a :: as, b :: bs => P a b ∧ Rel2 P as bs
  | _, _ => False

theorem OutRel.imp {α β : Type} {P Q : α → β → Prop} (h : ∀ a b, P a b → Q a b) : ∀ {x : Out E α} {y : Out E β}, OutRel P x y → OutRel Q x y
  | .ok _, .ok _, hp => h _ _ hp
  | .thrown _, .thrown _, hp => hp
  | .ub, .ub, _ => trivial
  | .illFormed, .illFormed, _ => trivial

theorem Rel2.imp {α β : Type} {P Q : α → β → Prop} (h : ∀ a b, P a b → Q a b) : ∀ {x : List α} {y : List β}, Rel2 P x y → Rel2 Q x y
  | [], [], _ => trivial
  | _ :: _, _ :: _, hp => ⟨h _ _ hp.1, hp.2.imp h⟩

theorem OutRel.map {α β α' β' : Type} {P : α → β → Prop} {Q : α' → β' → Prop} {f : α → α'} {g : β → β'} (h : ∀ a b, P a b → Q (f a) (g b)) :
    ∀ {x : Out E α} {y : Out E β}, OutRel P x y → OutRel Q (x.map f) (y.map g)
  | .ok _, .ok _, hp => h _ _ hp
  | .thrown _, .thrown _, hp => hp
  | .ub, .ub, _ => trivial
  | .illFormed, .illFormed, _ => trivial

/-- The `LazyResult` of the memory model and that of `Model/Lazy.lean`: same flag; a reference refers to an object that does not exist any more
(or, `PreRes`, that is about to end its lifetime, having an address between `lo` and `hi`) and is marked as not readable; a value is the same. -/
def PreRes (byRef : Bool) (lo hi : Nat) (m : LMem D W E S) (r : LRes D) (q : LazyRes D) : Prop :=
  r.isChanged = q.isChanged ∧
  match r.value with
  | .inl a => byRef = true ∧ a < m.next ∧ (m.alive a = true → lo ≤ a ∧ a < hi) ∧ q.live = false
  | .inr v => byRef = false ∧ v = q.value ∧ q.live = true

/-- Same, nothing being about to end its lifetime. -/
def ResRel (byRef : Bool) (m : LMem D W E S) (r : LRes D) (q : LazyRes D) : Prop := PreRes byRef 0 0 m r q

theorem PreRes.killed {byRef : Bool} {lo hi : Nat} {m : LMem D W E S} {r : LRes D} {q : LazyRes D} (h : PreRes byRef lo hi m r q) :
    ResRel byRef (m.killRange lo hi) r q := by
  refine ⟨h.1, ?_⟩
  have h2 := h.2
  rcases hr : r.value with a | v <;> simp only [hr] at h2 ⊢
  · refine ⟨h2.1, h2.2.1, ?_, h2.2.2.2⟩
    intro ha
    simp only [Mem.killRange, Bool.and_eq_true, Bool.not_eq_true', Bool.and_eq_false_iff, decide_eq_false_iff_not] at ha
    have := h2.2.2.1 ha.1
    omega
  · exact h2

/-- Later memory. -/
theorem PreRes.later {byRef : Bool} {lo hi : Nat} {m m' : LMem D W E S} {r : LRes D} {q : LazyRes D} (h : PreRes byRef lo hi m r q)
    (hn : m.next ≤ m'.next) (ha : ∀ a < m.next, m'.alive a = true → m.alive a = true) : PreRes byRef lo hi m' r q := by
  refine ⟨h.1, ?_⟩
  have h2 := h.2
  rcases hr : r.value with a | v <;> simp only [hr] at h2 ⊢
  · exact ⟨h2.1, by omega, fun h => h2.2.2.1 (ha a h2.2.1 h), h2.2.2.2⟩
  · exact h2

theorem PreRes.keeps {byRef : Bool} {lo hi : Nat} {X : Nat → Prop} {m m' : LMem D W E S} {r : LRes D} {q : LazyRes D}
    (h : PreRes byRef lo hi m r q) (hk : Keeps X m m') : PreRes byRef lo hi m' r q :=
  h.later hk.next fun a ha h => by rw [← hk.alive a ha]; exact h

/-- Reading a result. -/
theorem ResRel.read {byRef : Bool} {m : LMem D W E S} {r : LRes D} {q : LazyRes D} (h : ResRel byRef m r q) :
    r.read m = if q.live then some q.value else none := by
  have h2 := h.2
  rcases hr : r.value with a | v <;> simp only [hr] at h2
  · have : m.alive a = false := by
      rcases ha : m.alive a
      · rfl
      · have := h2.2.2.1 ha; omega
    simp [LRes.read, hr, this, h2.2.2.2]
  · simp [LRes.read, hr, h2.2.2, h2.2.1]

theorem readResults_eq {byRef : Bool} {m : LMem D W E S} : ∀ {rs : List (LRes D)} {qs : List (LazyRes D)}, Rel2 (ResRel byRef m) rs qs →
    readResults m rs = if qs.all (·.live) then some (qs.map LazyRes.value) else none
  | [], [], _ => rfl
  | r :: rs, q :: qs, h => by
    rw [readResults, h.1.read, readResults_eq h.2]
    cases hl : q.live <;> cases hq : qs.all (·.live) <;> simp [hq, hl]

theorem isChanged_any {byRef : Bool} {m : LMem D W E S} : ∀ {rs : List (LRes D)} {qs : List (LazyRes D)}, Rel2 (ResRel byRef m) rs qs →
    rs.any LRes.isChanged = qs.any LazyRes.isChanged
  | [], [], _ => rfl
  | r :: rs, q :: qs, h => by
    rw [List.any_cons, List.any_cons, h.1.1, isChanged_any h.2]

theorem coreLive_written (byRef : Bool) (c : Cache D) : (written byRef).coreLive c = !byRef := by
  cases c <;> simp [Glue.coreLive, written, Glue.asWritten]

theorem mkResult_rel {byRef : Bool} {lo hi : Nat} {m : LMem D W E S} {a : Nat} (v : Val D) (changed : Bool) (ha : a < m.next)
    (h : m.alive a = true → lo ≤ a ∧ a < hi) : PreRes byRef lo hi m (mkResult byRef a v changed) ⟨v, changed, !byRef⟩ := by
  cases byRef
  · exact ⟨rfl, rfl, rfl, rfl⟩
  · exact ⟨rfl, rfl, ha, h, rfl⟩

/-- `return LazyResult{ *cache, changed };` -/
theorem coreResult_spec (byRef : Bool) (a : Nat) (changed : Bool) (c : Cache D) (m : LMem D W E S) (lo hi : Nat) (hc : m.get a = .cache c)
    (hl : m.alive a = true) (hlo : lo ≤ a) (hhi : a < hi) (hn : a < m.next) :
    OutRel (PreRes byRef lo hi (coreResult (E := E) byRef a changed m).2) (coreResult (E := E) byRef a changed m).1
      (match c.deref with | some v => .ok ⟨v, changed, !byRef⟩ | none => (.ub : Out E (LazyRes D))) ∧
    (coreResult (E := E) byRef a changed m).2.world = m.world ∧ Keeps (fun _ => False) m (coreResult (E := E) byRef a changed m).2 := by
  rcases c with (_ | v) | o <;> simp only [coreResult, look_eq hl hc, Cache.deref]
  · exact ⟨trivial, trivial, Keeps.refl _ _⟩
  · exact ⟨mkResult_rel _ _ hn fun _ => ⟨hlo, hhi⟩, trivial, Keeps.refl _ _⟩
  · refine ⟨mkResult_rel _ _ ?_ ?_, rfl, ((Keeps.refl _ m).alloc _).kill _ (Nat.le_refl _)⟩
    · simp [Mem.kill, Mem.alloc]
    · simp [Mem.kill]

/-! ### The closure of `detail::lazy` -/

theorem placed_refs (base : MV D W E S → LB) : ∀ (vs : List (Val D)) (m : LMem D W E S),
    let p := placeAll (vs.map fun v => (base (.val v), (.val v : MV D W E S))) m
    (∀ e ∈ constRefs p.1, e.cat = .lv ∧ e.addr < p.2.next) ∧ ((constRefs p.1).map fun e => p.2.get e.addr) = vs.map .val
  | [], m => by simp [placeAll, constRefs]
  | v :: vs, m => by
    obtain ⟨h1, h2⟩ := placed_refs base vs (m.alloc (.val v))
    obtain ⟨g, -⟩ := placeAll_spec (vs.map fun v => (base (.val v), (.val v : MV D W E S))) (m.alloc (.val v))
    have hn := g.next
    rw [alloc_next] at hn
    simp only [List.map_cons, placeAll, constRefs]
    refine ⟨?_, ?_⟩
    · intro e he
      rcases List.mem_cons.1 he with rfl | he
      · exact ⟨rfl, by simp only; omega⟩
      · exact h1 e he
    · rw [h2, List.cons.injEq]
      exact ⟨by rw [g.frame _ (by rw [alloc_next]; omega) (by simp), alloc_get], rfl⟩

/-- The body of the closure, given that the dependencies are evaluated accordingly. -/
theorem coreBody_spec [CxxData D] (Θ : Empties D W E S) (moved : MV D W E S → MV D W E S) (byRef : Bool) (f : Fun D W E S) (cache : Cache D) (ds : List (Obj D W E S))
    (evalD : List (Expr LB) → LMem D W E S → Out E (List (LRes D)) × LMem D W E S) (callee np fp : Expr LB) (es : List (Expr LB))
    (m : LMem D W E S) (lo hi : Nat) (hlo : lo ≤ callee.addr) (hhi : callee.addr < hi) (hle : hi ≤ m.next)
    (hc : m.get callee.addr = .cache cache) (hf : m.get fp.addr = .func f) (hflt : fp.addr < m.next)
    (hcla : m.alive callee.addr = true) (hfla : m.alive fp.addr = true)
    (hone : ∀ u, f = .wrapDep u → ∀ rs, (evalDeps (written byRef) ds m.world).1 = .ok rs →
      (tupleCTAD Val.asTuple (rs.map LazyRes.value)).length = 1)
    (hD1 : OutRel (Rel2 (ResRel byRef (evalD es m).2)) (evalD es m).1 (evalDeps (written byRef) ds m.world).1)
    (hD2 : (evalD es m).2.world = (evalDeps (written byRef) ds m.world).2.2)
    (hD4 : Keeps (fun _ => False) m (evalD es m).2) :
    OutRel (PreRes byRef lo hi (coreBody (lang Θ moved) byRef (funSh f) evalD callee (np :: fp :: es) m).2)
        (coreBody (lang Θ moved) byRef (funSh f) evalD callee (np :: fp :: es) m).1 (evalN (written byRef) (.core f cache ds) m.world).1 ∧
      (coreBody (lang Θ moved) byRef (funSh f) evalD callee (np :: fp :: es) m).2.world = (evalN (written byRef) (.core f cache ds) m.world).2.2 ∧
      (evalN (written byRef) (.core f cache ds) m.world).2.1 = .core f cache ds ∧
      Keeps (· = callee.addr) m (coreBody (lang Θ moved) byRef (funSh f) evalD callee (np :: fp :: es) m).2 := by
  rcases hq : evalDeps (written byRef) ds m.world with ⟨oq, ds', env1⟩
  rcases hr : evalD es m with ⟨or, m1⟩
  rw [hq] at hone hD1 hD2
  rw [hr] at hD1 hD2 hD4
  simp only at hone hD1 hD2 hD4
  have hk1 : Keeps (· = callee.addr) m m1 := hD4.mono fun _ _ h => h.elim
  have hkeepc : (written byRef).coreParamsByValue = true := rfl
  have hkeepb : (written byRef).bindFrontCopies = true := rfl
  have hn1 := hD4.next
  rcases oq with rs | e | _ | _ <;> rcases or with rs' | e' | _ | _ <;> simp only [OutRel] at hD1
  · -- the dependencies have values
    have hcl : m1.get callee.addr = .cache cache := by rw [hD4.frame _ (by omega) (by simp), hc]
    have hfl : m1.get fp.addr = .func f := by rw [hD4.frame _ (by omega) (by simp), hf]
    have hcl2 : m1.alive callee.addr = true := by rw [hD4.alive _ (by omega), hcla]
    have hfl2 : m1.alive fp.addr = true := by rw [hD4.alive _ hflt, hfla]
    simp only [evalN, hq, coreBody, hr, look_eq hcl2 hcl, coreTail, hkeepc, hkeepb, keep_true, any_eq, isChanged_any hD1, readResults_eq hD1, readValues,
      transform_eq, coreLive_written]
    by_cases hch : (!cache.engaged || rs.any LazyRes.isChanged) = true
    · rw [if_pos hch, if_pos hch]
      by_cases hlive : (rs.all fun x => x.live) = true
      · simp only [hlive, if_true]
        have hvs := placed_refs (D := D) (W := W) (E := E) (S := S) (lang Θ moved).base (tupleCTAD Val.asTuple (rs.map LazyRes.value)) m1
        have hpl := placeAll_spec (((tupleCTAD Val.asTuple (rs.map LazyRes.value)).map fun v => ((lang Θ moved).base (.val v), (.val v : MV D W E S)))) m1
        generalize hp : placeAll (((tupleCTAD Val.asTuple (rs.map LazyRes.value)).map fun v => ((lang Θ moved).base (.val v), (.val v : MV D W E S)))) m1 = p at hvs hpl ⊢
        simp only at hvs
        have hpn := hpl.1.next
        obtain ⟨f1, f2, f3, f4⟩ := funCode_spec Θ moved byRef f fp (constRefs p.1) (tupleCTAD Val.asTuple (rs.map LazyRes.value)) p.2
          (by rw [hpl.1.frame _ (by omega) (by simp), hfl]) (by rw [hpl.1.aliveOld _ (by omega), hfl2]) hvs.1 hvs.2 (fun u hu => hone u hu rs rfl)
        have hpw : p.2.world = env1 := by rw [hpl.1.world, hD2]
        rw [hpw] at f1 f2 f3
        rcases hcf : f.call (written byRef) (tupleCTAD Val.asTuple (rs.map LazyRes.value)) env1 with ⟨o, f', env2⟩
        rcases hfc : funCode (lang Θ moved) (funSh f) fp (constRefs p.1) p.2 with ⟨o', m2⟩
        rw [hcf] at f1 f2 f3
        rw [hfc] at f1 f2 f4
        simp only at f1 f2 f3 f4
        subst f1
        have hk2 : Keeps (fun _ => False) m1 m2 := (Keeps.ofGrows hpl.1).trans f4 fun _ _ h => h
        have hk2' : Keeps (· = callee.addr) m m2 := hk1.trans hk2 fun _ _ h => h.elim
        have hn2 := hk2.next
        rcases o' with result | e | _ | _
        · simp only
          have hc3 := coreResult_spec (E := E) byRef callee.addr (cache.ne result) (cache.assign result)
            (({ m2 with world := { m2.world with log := m2.world.log ++ cmpEvents cache result } } : LMem D W E S).write callee.addr
              (.cache (cache.assign result))) lo hi (by simp [Mem.write])
            (by show m2.alive _ = true; rw [hk2.alive _ (by omega), hcl2]) hlo hhi (by simp only [Mem.write]; omega)
          obtain ⟨c1, c2, c3⟩ := hc3
          generalize hcr : coreResult (E := E) byRef callee.addr (cache.ne result)
            (({ m2 with world := { m2.world with log := m2.world.log ++ cmpEvents cache result } } : LMem D W E S).write callee.addr
              (.cache (cache.assign result))) = cr at c1 c2 c3 ⊢
          obtain ⟨v, hv⟩ : ∃ v, (cache.assign result).deref = some v := by
            rcases cache with o | o <;> exact ⟨_, rfl⟩
          rw [hv] at c1
          simp only [hv]
          refine ⟨?_, ?_, trivial, ?_⟩
          · refine OutRel.imp (fun a b h => ?_) c1
            refine PreRes.later (m' := cr.2.killRange _ _) h (Nat.le_refl _) ?_
            intro a _ ha
            simp only [Mem.killRange, Bool.and_eq_true] at ha
            exact ha.1
          · show cr.2.world = _
            rw [c2]
            simp only [Mem.write, f2]
          · refine Keeps.killRange ?_ _ _ (by omega)
            exact ((hk2'.setWorld _).write _ _ (.inr (.inl rfl))).trans c3 fun _ _ h => h.elim
        · exact ⟨rfl, f2, trivial, hk2'.killRange _ _ (by omega)⟩
        · exact ⟨trivial, f2, trivial, hk2'.killRange _ _ (by omega)⟩
        · exact ⟨trivial, f2, trivial, hk2'.killRange _ _ (by omega)⟩
      · simp only [hlive]
        exact ⟨trivial, hD2, trivial, hk1⟩
    · rw [if_neg hch, if_neg hch]
      obtain ⟨c1, c2, c3⟩ := coreResult_spec (E := E) byRef callee.addr false cache m1 lo hi hcl hcl2 hlo hhi (by omega)
      rcases hv : cache.deref with _ | v <;> rw [hv] at c1 <;> simp only
      · exact ⟨c1, by rw [c2, hD2], trivial, hk1.trans c3 fun _ _ h => h.elim⟩
      · exact ⟨c1, by rw [c2, hD2], trivial, hk1.trans c3 fun _ _ h => h.elim⟩
  · subst hD1
    simp only [evalN, hq, coreBody, hr, hkeepc, keep_true, Out.map, OutRel]
    exact ⟨trivial, hD2, trivial, hk1⟩
  · simp only [evalN, hq, coreBody, hr, hkeepc, keep_true, Out.map, OutRel]
    exact ⟨trivial, hD2, trivial, hk1⟩
  · simp only [evalN, hq, coreBody, hr, hkeepc, keep_true, Out.map, OutRel]
    exact ⟨trivial, hD2, trivial, hk1⟩

/-! ### All objects -/

mutual
/-- Objects as they are constructed: the adaptor of a plain function has the one dependency `lazy_value(0, std::true_type{})` (lazy.h:85). -/
def Typed : Obj D W E S → Prop
  | .lazyValue _ _ => True
  | .core f _ deps => TypedL deps ∧ ∀ u, f = .wrapDep u → ∃ d, deps = [.lazyValue (.data d) true]
  | .unwrapped inner => Typed inner
  | .unregularized inner => Typed inner
/-- Same for several objects. -/
def TypedL : List (Obj D W E S) → Prop
  | [] => True
  | o :: os => Typed o ∧ TypedL os
end

theorem ResRel.through {byRef : Bool} {m : LMem D W E S} {r : LRes D} {q : LazyRes D} (h : ResRel byRef m r q) :
    ResRel byRef m r (q.through (byRef && true)) := by
  refine ⟨h.1, ?_⟩
  have h2 := h.2
  rcases hr : r.value with a | v <;> simp only [hr] at h2 ⊢
  · exact ⟨h2.1, h2.2.1, h2.2.2.1, by simp [LazyRes.through, h2.2.2.2]⟩
  · exact ⟨h2.1, h2.2.1, by simp [LazyRes.through, h2.2.2, h2.1]⟩

theorem PreRes.write {byRef : Bool} {lo hi : Nat} {m : LMem D W E S} {r : LRes D} {q : LazyRes D} (h : PreRes byRef lo hi m r q) (a : Nat)
    (x : MV D W E S) : PreRes byRef lo hi (m.write a x) r q :=
  h.later (Nat.le_refl _) fun _ _ h => h

theorem PreRes.killRange {byRef : Bool} {lo hi : Nat} {m : LMem D W E S} {r : LRes D} {q : LazyRes D} (h : PreRes byRef lo hi m r q)
    (a b : Nat) : PreRes byRef lo hi (m.killRange a b) r q :=
  h.later (Nat.le_refl _) fun _ _ h => by
    simp only [Mem.killRange, Bool.and_eq_true] at h
    exact h.1

theorem PreRes.kill {byRef : Bool} {lo hi : Nat} {m : LMem D W E S} {r : LRes D} {q : LazyRes D} (h : PreRes byRef lo hi m r q)
    (a : Nat) : PreRes byRef lo hi (m.kill a) r q :=
  h.later (Nat.le_refl _) fun _ _ h => by
    simp only [Mem.kill, Bool.and_eq_true] at h
    exact h.1

/-- What is proved of every object: called at memory level, it does what `evalN` says for the pinned code; and all objects that existed before,
the called one included, are unchanged (`nullptr` excepted, which may be moved from). -/
def CallOk [CxxData D] (Θ : Empties D W E S) (moved : MV D W E S → MV D W E S) (byRef : Bool) (o : Obj D W E S) : Prop :=
  ∀ (m : LMem D W E S) (callee np : Expr LB), callee.cat = .lv → callee.addr < m.next → m.get callee.addr = .obj o →
    m.alive callee.addr = true → np.addr < m.next →
    np.addr ≠ callee.addr →
    OutRel (ResRel byRef (callN (lang Θ moved) byRef (sh o) callee [np] m).2) (callN (lang Θ moved) byRef (sh o) callee [np] m).1
        (evalN (written byRef) o m.world).1 ∧
      (callN (lang Θ moved) byRef (sh o) callee [np] m).2.world = (evalN (written byRef) o m.world).2.2 ∧
      (evalN (written byRef) o m.world).2.1 = o ∧
      Keeps (· = np.addr) m (callN (lang Θ moved) byRef (sh o) callee [np] m).2

theorem asObjs_eq : ∀ (ds : List (Obj D W E S)), asObjs (ds.map (MV.obj (D := D) (W := W) (E := E) (S := S))) = some ds
  | [] => rfl
  | d :: ds => by
    rw [List.map_cons, asObjs, asObjs_eq ds]
    rfl

theorem moves_np {np : Expr LB} {a : Nat} (h : ∃ e ∈ [np], Moves e a) : a = np.addr := by
  obtain ⟨e, he, h, -⟩ := h
  rw [List.mem_singleton] at he
  rw [← h, he]

theorem callN_value [CxxData D] (Θ : Empties D W E S) (moved : MV D W E S → MV D W E S) (byRef : Bool) (v : Val D) (c : Bool) : CallOk Θ moved byRef (.lazyValue v c) := by
  intro m callee np hcat hlt hget hlive hnp hne
  obtain ⟨lg, lels, lhold⟩ := layout_spec Θ moved [.val v, .flag c] m
  have ln := lg.next
  obtain ⟨fe, ps, m', f1, f2, f3, hps, hpw, hpv, hw, hk, hold, hal, hcall⟩ := backCall (E := E) Θ moved (.empty (.lam .value))
    (tupleOf (layout (lang Θ moved) [.val v, .flag c] m).1 callee.addr) (layout (lang Θ moved) [.val v, .flag c] m).1 callee.c callee.cat
    (tupleOf_constOk _ _ _) [np] m (layout (lang Θ moved) [.val v, .flag c] m).2 lg .unit [.val v, .flag c] (by
      intro el hel
      rcases List.mem_cons.1 hel with rfl | hel
      · exact .inl ⟨_, rfl⟩
      · exact lels el hel) rfl lhold
    (fun e he => by rw [List.mem_singleton] at he; rw [he]; exact hnp) (by simp [Apart]) 0 (by simp)
  simp only [List.drop_zero, List.map_cons, List.map_nil, List.cons_append, List.nil_append] at hpv
  obtain ⟨n', x, y, rfl⟩ : ∃ a b c, ps = [a, b, c] := by
    have := congrArg List.length hpv
    rcases ps with _ | ⟨a, _ | ⟨b, _ | ⟨c, _ | ⟨d, l⟩⟩⟩⟩ <;> simp at this
    exact ⟨a, b, c, rfl⟩
  simp only [List.map_cons, List.map_nil, List.cons.injEq, and_true] at hpv
  obtain ⟨x1, x2, x3, x4, x5, x6⟩ := hps x (by simp)
  have hc := hcall (LRes D) (fun _ => ending fun ps m => match ps with
    | [_, value, changed] =>
      match look m value.addr, look m changed.addr with
      | .val v, .flag b => (.ok (mkResult byRef value.addr v b), m)
      | _, _ => (.ub, m)
    | _ => (.illFormed, m))
  obtain ⟨y1, y2, y3, y4, y5, y6⟩ := hps y (by simp)
  simp only [ending, look_eq (hal _ (by omega) x5) hpv.2.1, look_eq (hal _ (by omega) y5) hpv.2.2] at hc
  have he : callN (lang Θ moved) byRef (sh (.lazyValue v c : Obj D W E S)) callee [np] m = (.ok (mkResult byRef x.addr v c),
      ((m'.killRange m'.next m'.next).killRange (layout (lang Θ moved) [.val v, .flag c] m).2.next m'.next).write callee.addr (.obj (.lazyValue v c))) := by
    simp only [sh, callN, look_eq hlive hget]
    exact callBound_eq (s := .unit) hc rfl (holdAll_later lhold lels hold) rfl
  rw [he]
  refine ⟨?_, hw, rfl, ?_⟩
  · refine PreRes.write ?_ _ _
    refine PreRes.killed ?_
    have := mkResult_rel (byRef := byRef) (lo := (layout (lang Θ moved) [.val v, .flag c] m).2.next) (hi := m'.next) (m := m'.killRange m'.next m'.next) (a := x.addr) v c x5
      (fun _ => ⟨x4, x5⟩)
    simpa [written, Glue.asWritten] using this
  · exact Keeps.write (Keeps.killRange (Keeps.killRange (hk.mono fun _ _ h => moves_np h) _ _ (by have := hk.next; omega)) _ _ ln) _ _ (.inr (.inr hget.symm))

theorem callN_unwrapped [CxxData D] (Θ : Empties D W E S) (moved : MV D W E S → MV D W E S) (byRef : Bool) (inner : Obj D W E S) (ih : CallOk Θ moved byRef inner) :
    CallOk Θ moved byRef (.unwrapped inner) := by
  intro m callee np hcat hlt hget hlive hnp hne
  obtain ⟨lg, lels, lhold⟩ := layout_spec Θ moved [.obj inner] m
  have ln := lg.next
  obtain ⟨fe, ps, m', f1, f2, f3, hps, hpw, hpv, hw, hk, hold, hal, hcall⟩ := backCall (E := E) Θ moved (.empty (.lam .unwrap))
    (tupleOf (layout (lang Θ moved) [.obj inner] m).1 callee.addr) (layout (lang Θ moved) [.obj inner] m).1 callee.c callee.cat
    (tupleOf_constOk _ _ _) [callee, np] m (layout (lang Θ moved) [.obj inner] m).2 lg .unit [.obj inner] (by
      intro el hel
      rcases List.mem_cons.1 hel with rfl | hel
      · exact .inl ⟨_, rfl⟩
      · exact lels el hel) rfl lhold
    (fun e he => by
        simp only [List.mem_cons, List.not_mem_nil, or_false] at he
        rcases he with rfl | rfl
        · exact hlt
        · exact hnp) (by
        simp only [Apart, List.pairwise_cons, List.mem_singleton, forall_eq, List.not_mem_nil, false_imp_iff, implies_true, List.Pairwise.nil, and_true]
        exact fun _ h => hne h.symm) 1 (by simp)
  simp only [List.drop_succ_cons, List.drop_zero, List.map_cons, List.map_nil, List.cons_append, List.nil_append] at hpv
  obtain ⟨a, d, rfl⟩ : ∃ a d, ps = [a, d] := by
    exact length_two (by simpa using congrArg List.length hpv)
  simp only [List.map_cons, List.map_nil, List.cons.injEq, and_true] at hpv
  obtain ⟨d1, d2, d3, d4, d5, d6⟩ := hps d (by simp)
  obtain ⟨h1, h2, h3, h4⟩ := ih (m'.alloc .unit) d ⟨.nullptr, false, false, .xv, m'.next⟩ d3 (by rw [alloc_next]; omega)
    (by simp only [Mem.alloc]; rw [if_neg (by omega)]; exact hpv.2)
    (by simp [Mem.alloc, hal _ (by omega : m.next ≤ d.addr) d5]) (by simp only; rw [alloc_next]; omega) (by simp only; omega)
  have hwa : (m'.alloc (MV.unit : MV D W E S)).world = m.world := hw
  rw [hwa] at h1 h2 h3
  have hc := hcall (LRes D) (fun _ => ending fun ps m => match ps with
    | [_, f] => withNullptr (callN (lang Θ moved) byRef (sh inner)) f m
    | _ => (.illFormed, m))
  simp only [ending, withNullptr] at hc
  generalize hr : callN (lang Θ moved) byRef (sh inner) d [⟨.nullptr, false, false, .xv, m'.next⟩] (m'.alloc .unit) = r at h1 h2 h4 hc
  simp only at h4
  have hk' : Keeps (· = np.addr) m m' := hk.mono fun x _ h => by
    obtain ⟨e, he, e1, e2, e3⟩ := h
    simp only [List.mem_cons, List.not_mem_nil, or_false] at he
    rcases he with rfl | rfl
    · rw [hcat] at e2; simp at e2
    · exact e1.symm
  have hn := hk'.next
  have hk2 : Keeps (· = np.addr) m (r.2.kill m'.next) :=
    ((hk'.alloc _).trans h4 fun x hx h => by omega).kill _ (by omega)
  have he : callN (lang Θ moved) byRef (sh (.unwrapped inner)) callee [np] m = (r.1,
      (((r.2.kill m'.next).killRange m'.next r.2.next).killRange (layout (lang Θ moved) [.obj inner] m).2.next m'.next).write callee.addr (.obj (.unwrapped inner))) := by
    simp only [sh, callN, look_eq hlive hget]
    exact callBound_eq (s := .unit) hc rfl (holdAll_later lhold lels fun x hx hy => by
      show r.2.get x = _
      rw [h4.frame _ (by rw [alloc_next]; omega) (by omega)]
      simp only [Mem.alloc]
      rw [if_neg (by omega), hold _ hx hy]) rfl
  rw [he]
  rcases hq : evalN (written byRef) inner m.world with ⟨o, inner', env'⟩
  rw [hq] at h1 h2 h3
  simp only at h1 h2 h3
  have hb : (written byRef).unwrapParamByValue = true := rfl
  have hb2 : (written byRef).resultByRef = byRef := rfl
  simp only [evalN, hq, hb, hb2, keep_true]
  refine ⟨?_, h2, trivial, ?_⟩
  · have : OutRel (ResRel byRef r.2) r.1 (o.map (LazyRes.through (byRef && true))) := by
      have h := OutRel.map (E := E) (f := id) (g := LazyRes.through (byRef && true)) (fun _ _ h => ResRel.through h) h1
      rwa [show Out.map id r.1 = r.1 by cases r.1 <;> rfl] at h
    refine OutRel.imp (fun a b h => ?_) this
    exact (((PreRes.kill h _).killRange _ _).killRange _ _).write _ _
  · exact Keeps.write ((hk2.killRange _ _ (by omega)).killRange _ _ (by omega)) _ _ (.inr (.inr hget.symm))

/-- Calling the facade made by `unregularized_void` around an object. -/
theorem unregularizedCode_spec {R Q : Type} (Θ : Empties D W E S) (moved : MV D W E S → MV D W E S) (inner : Obj D W E S) (code : LCode D W E S R)
    (callee : Expr LB) (args : List (Expr LB)) (m : LMem D W E S) (hget : m.get callee.addr = .obj (.unregularized inner))
    (hlive : m.alive callee.addr = true)
    (hargs : ∀ e ∈ args, e.addr < m.next ∧ e.addr ≠ callee.addr) (hx : Apart args)
    (P : LMem D W E S → R → Q → Prop) (hPk : ∀ m lo hi r q, P m r q → P (m.killRange lo hi) r q) (hPw : ∀ m a x r q, P m r q → P (m.write a x) r q)
    (out : Out E Q) (env' : Env D W S)
    (ih : ∀ (m' : LMem D W E S) (p : Expr LB) (ps : List (Expr LB)), m'.world = m.world → p.cat = .lv → p.addr < m'.next → m'.get p.addr = .obj inner →
      m'.alive p.addr = true → ps.length = args.length → (∀ q ∈ ps, q.cat = .lv ∧ q.addr < m'.next ∧ q.addr ≠ p.addr) →
      OutRel (P (code p ps m').2) (code p ps m').1 out ∧ (code p ps m').2.world = env' ∧
        Keeps (fun a => ∃ q ∈ ps, q.addr = a) m' (code p ps m').2) :
    OutRel (P (unregularizedCode (lang Θ moved) code callee args m).2) (unregularizedCode (lang Θ moved) code callee args m).1 out ∧
      (unregularizedCode (lang Θ moved) code callee args m).2.world = env' ∧
      Keeps (fun a => ∃ e ∈ args, Moves e a) m (unregularizedCode (lang Θ moved) code callee args m).2 := by
  obtain ⟨p, ps, m', ⟨p1, p2, p3, p4, p5, p6, p7⟩, hps, hpv, hw, hk, hold, hcall⟩ := frontOne (E := E) Θ moved .unregularize (.obj inner) callee.c
    callee.cat callee.addr args m (fun e he => (hargs e he).1) hx
  obtain ⟨h1, h2, h3⟩ := ih m' p ps hw p3 p5 p6 p7 (by simpa using congrArg List.length hpv)
    (fun q hq => ⟨(hps q hq).2.2.1, (hps q hq).2.2.2.2.1, (hps q hq).2.2.2.2.2.1⟩)
  have hc := hcall R (ending fun ps m => match ps with
    | f :: args => code f args m
    | [] => (.illFormed, m))
  simp only [ending] at hc
  obtain ⟨lg, lels, lhold⟩ := layout_spec Θ moved [.obj inner] m
  have ln := lg.next
  have hnq : ∀ a, a < (layout (lang Θ moved) [.obj inner] m).2.next → ¬ ∃ q ∈ ps, q.addr = a := by
    rintro a ha ⟨q, hq, h⟩
    have := (hps q hq).2.2.2.1
    omega
  have hk2 : Keeps (fun a => ∃ e ∈ args, Moves e a) m (code p ps m').2 := hk.trans h3 fun a ha h => absurd h (hnq a (by omega))
  have he : unregularizedCode (lang Θ moved) code callee args m = ((code p ps m').1,
      (((code p ps m').2.killRange m'.next (code p ps m').2.next).killRange (layout (lang Θ moved) [.obj inner] m).2.next m'.next).write callee.addr (.obj (.unregularized inner))) := by
    simp only [unregularizedCode, look_eq hlive hget]
    exact callBound_eq (s := .unit) hc rfl (holdAll_later lhold lels fun a ha hb => by
      show (code p ps m').2.get a = _
      rw [h3.frame a (by omega) (hnq a hb), hold a ha hb]) rfl
  rw [he]
  exact ⟨OutRel.imp (fun a b h => hPw _ _ _ _ _ (hPk _ _ _ _ _ (hPk _ _ _ _ _ h))) h1, h2,
    Keeps.write ((hk2.killRange _ _ (by have := hk.next; omega)).killRange _ _ (by omega)) _ _ (.inr (.inr hget.symm))⟩

theorem callN_unregularized [CxxData D] (Θ : Empties D W E S) (moved : MV D W E S → MV D W E S) (byRef : Bool) (inner : Obj D W E S) (ih : CallOk Θ moved byRef inner) :
    CallOk Θ moved byRef (.unregularized inner) := by
  intro m callee np hcat hlt hget hlive hnp hne
  rcases hq : evalN (written byRef) inner m.world with ⟨o, inner', env'⟩
  have hb : (written byRef).facadeParamByValue = true := rfl
  have hb2 : (written byRef).resultByRef = byRef := rfl
  simp only [evalN, hq, hb, hb2, keep_true, sh, callN]
  obtain ⟨h1, h2, h3⟩ := unregularizedCode_spec Θ moved inner (callN (lang Θ moved) byRef (sh inner)) callee [np] m hget hlive
    (by simpa using ⟨hnp, hne⟩) (by simp [Apart]) (ResRel byRef) (fun m lo hi r q h => PreRes.killRange h _ _)
    (fun m a x r q h => PreRes.write h _ _) (o.map (LazyRes.through (byRef && true))) env' (by
      intro m' p ps hw hp hpl hpg hpa hlen hps
      obtain ⟨np', rfl⟩ := List.length_eq_one_iff.1 hlen
      obtain ⟨n1, n2, n3⟩ := hps np' (by simp)
      obtain ⟨g1, g2, g3, g4⟩ := ih m' p np' hp hpl hpg hpa n2 n3
      rw [hw, hq] at g1 g2
      refine ⟨?_, g2, g4.mono fun a _ h => ⟨np', by simp, h.symm⟩⟩
      have h := OutRel.map (E := E) (f := id) (g := LazyRes.through (byRef && true)) (fun _ _ h => ResRel.through h) g1
      rwa [show ∀ x : Out E (LRes D), Out.map id x = x by intro x; cases x <;> rfl] at h)
  exact ⟨h1, h2, trivial, h3.mono fun _ _ h => moves_np h⟩

/-- What is proved of the dependencies of an object. -/
def DepsOk [CxxData D] (Θ : Empties D W E S) (moved : MV D W E S → MV D W E S) (byRef : Bool) (ds : List (Obj D W E S)) : Prop :=
  ∀ (m : LMem D W E S) (es : List (Expr LB)), (∀ e ∈ es, e.cat = .lv ∧ e.addr < m.next ∧ m.alive e.addr = true) →
    (es.map fun e => m.get e.addr) = ds.map .obj →
    OutRel (Rel2 (ResRel byRef (callDeps (lang Θ moved) byRef (shL ds) es m).2)) (callDeps (lang Θ moved) byRef (shL ds) es m).1
        (evalDeps (written byRef) ds m.world).1 ∧
      (callDeps (lang Θ moved) byRef (shL ds) es m).2.world = (evalDeps (written byRef) ds m.world).2.2 ∧
      (evalDeps (written byRef) ds m.world).2.1 = ds ∧
      Keeps (fun _ => False) m (callDeps (lang Θ moved) byRef (shL ds) es m).2

theorem callN_core [CxxData D] (Θ : Empties D W E S) (moved : MV D W E S → MV D W E S) (byRef : Bool) (f : Fun D W E S) (cache : Cache D) (ds : List (Obj D W E S))
    (hone : ∀ u, f = .wrapDep u → ∃ d, ds = [.lazyValue (.data d) true]) (ih : DepsOk Θ moved byRef ds) : CallOk Θ moved byRef (.core f cache ds) := by
  intro m callee np hcat hlt hget hlive hnp hne
  obtain ⟨pg, pe, pv⟩ := layout_spec Θ moved (.func f :: ds.map .obj) (m.alloc (.cache cache))
  have pn := pg.next
  rw [alloc_next] at pn pe
  have ga : Grows (fun _ => False) m (m.alloc (.cache cache)) := Grows.alloc _ _ _
  have hclo : (layout (lang Θ moved) (.func f :: ds.map .obj) (m.alloc (.cache cache))).2.get m.next = .cache cache := by
    rw [pg.frame _ (by rw [alloc_next]; omega) (by simp), alloc_get]
  generalize hpl : layout (lang Θ moved) (.func f :: ds.map .obj) (m.alloc (.cache cache)) = p at *
  have pels : ∀ el ∈ p.1, (∃ b, el = .empty b) ∨ ∃ b a, el = .stored ⟨b, false, false, .none⟩ a ∧ m.next ≤ a ∧ a < p.2.next := by
    intro el hel
    rcases pe el hel with h | ⟨b, a, h1, h2, h3⟩
    · exact .inl h
    · exact .inr ⟨b, a, h1, by omega, h3⟩
  obtain ⟨fe, ps, m', f1, f2, f3, hps, hpw, hpv, hw, hk, hold, hal, hcall⟩ := backCall (E := E) Θ moved
    (.stored ⟨.closure, false, false, .none⟩ m.next) (tupleOf p.1 callee.addr) p.1 callee.c callee.cat (tupleOf_constOk _ _ _) [np] m p.2
    (ga.trans pg) (.cache cache) (.func f :: ds.map .obj) (by
      intro el hel
      rcases List.mem_cons.1 hel with rfl | hel
      · exact .inr ⟨_, _, rfl, Nat.le_refl _, by omega⟩
      · exact pels el hel) hclo pv
    (fun e he => by rw [List.mem_singleton] at he; rw [he]; exact hnp) (by simp [Apart]) 0 (by simp)
  simp only [List.drop_zero, List.map_cons, List.map_nil, List.cons_append, List.nil_append] at hpv
  obtain ⟨n', fp, es, rfl⟩ : ∃ a b es, ps = a :: b :: es := by
    have := congrArg List.length hpv
    rcases ps with _ | ⟨a, _ | ⟨b, l⟩⟩ <;> simp at this
    exact ⟨a, b, l, rfl⟩
  simp only [List.map_cons, List.cons.injEq] at hpv
  obtain ⟨x1, x2, x3, x4, x5, x6⟩ := hps fp (by simp)
  obtain ⟨i1, i2, i3, i4⟩ := ih m' es (fun e he => by
    have := hps e (by simp [he])
    exact ⟨this.2.2.1, this.2.2.2.2.1, hal _ (by omega) this.2.2.2.2.1⟩) hpv.2.2
  obtain ⟨b1, b2, b3, b4⟩ := coreBody_spec Θ moved byRef f cache ds (callDeps (lang Θ moved) byRef (shL ds)) fe n' fp es m' p.2.next m'.next f1 f2
    (Nat.le_refl _) f3 hpv.2.1 x5 (hal _ (by omega) f2) (hal _ (by omega) x5) (by
      intro u hu rs hrs
      obtain ⟨d, rfl⟩ := hone u hu
      simp only [evalDeps, evalN, Out.map, Out.ok.injEq] at hrs
      subst hrs
      rfl) i1 i2 i4
  rw [hw] at b1 b2 b3
  have hc := hcall (LRes D) (fun callee => ending (coreBody (lang Θ moved) byRef (funSh f) (callDeps (lang Θ moved) byRef (shL ds)) callee))
  simp only [ending] at hc
  generalize hr : coreBody (lang Θ moved) byRef (funSh f) (callDeps (lang Θ moved) byRef (shL ds)) fe (n' :: fp :: es) m' = r at *
  have hn' : p.2.next ≤ m'.next := by omega
  have hview : ∀ a, m.next ≤ a → a < p.2.next → r.2.get a = p.2.get a := by
    intro a h1 h2
    rw [b4.frame a (by omega) (by omega), hold a h1 h2]
  have he : callN (lang Θ moved) byRef (sh (.core f cache ds)) callee [np] m = (r.1,
      ((r.2.killRange m'.next r.2.next).killRange p.2.next m'.next).write callee.addr (.obj (.core f cache ds))) := by
    simp only [sh, callN, look_eq hlive hget, hpl]
    refine callBound_eq (s := .cache cache) hc ?_ (holdAll_later pv pels hview) ?_
    · show r.2.get m.next = .cache cache
      rw [hview _ (by omega) (by omega), hclo]
    · simp only [asCore, asObjs_eq, Option.map_some]
  rw [he]
  refine ⟨?_, b2, b3, ?_⟩
  · exact OutRel.imp (fun a b h => PreRes.write (PreRes.killed (PreRes.killRange h _ _)) _ _) b1
  · refine Keeps.write (Keeps.killRange (Keeps.killRange ?_ _ _ (by omega)) _ _ (by omega)) _ _ (.inr (.inr hget.symm))
    exact (hk.mono fun _ _ h => moves_np h).trans b4 fun a ha h => by omega

mutual
/-- Every object. -/
theorem callN_spec [CxxData D] (Θ : Empties D W E S) (moved : MV D W E S → MV D W E S) (byRef : Bool) : ∀ (o : Obj D W E S), Typed o → CallOk Θ moved byRef o
  | .lazyValue v c, _ => callN_value Θ moved byRef v c
  | .core f cache ds, h => by
    rw [Typed] at h
    exact callN_core Θ moved byRef f cache ds h.2 (callDeps_spec Θ moved byRef ds h.1)
  | .unwrapped inner, h => by
    rw [Typed] at h
    exact callN_unwrapped Θ moved byRef inner (callN_spec Θ moved byRef inner h)
  | .unregularized inner, h => by
    rw [Typed] at h
    exact callN_unregularized Θ moved byRef inner (callN_spec Θ moved byRef inner h)
/-- All dependencies. -/
theorem callDeps_spec [CxxData D] (Θ : Empties D W E S) (moved : MV D W E S → MV D W E S) (byRef : Bool) : ∀ (ds : List (Obj D W E S)), TypedL ds → DepsOk Θ moved byRef ds
  | [], _ => by
    intro m es _ _
    simp only [shL, callDeps, evalDeps]
    exact ⟨trivial, trivial, trivial, Keeps.refl _ _⟩
  | d :: ds, h => by
    rw [TypedL] at h
    have ih1 := callN_spec Θ moved byRef d h.1
    have ih2 := callDeps_spec Θ moved byRef ds h.2
    intro m es hes hval
    obtain ⟨e, es, rfl⟩ : ∃ e es', es = e :: es' := by
      rcases es with _ | ⟨e, es⟩
      · simp at hval
      · exact ⟨e, es, rfl⟩
    simp only [List.map_cons, List.cons.injEq] at hval
    obtain ⟨e1, e2, e3⟩ := hes e (by simp)
    obtain ⟨h1, h2, h3, h4⟩ := ih1 (m.alloc .unit) e ⟨.nullptr, false, false, .xv, m.next⟩ e1 (by rw [alloc_next]; omega)
      (by simp only [Mem.alloc]; rw [if_neg (by omega)]; exact hval.1)
      (by simp [Mem.alloc, e3]) (by simp only; rw [alloc_next]; omega) (by simp only; omega)
    have hwa : (m.alloc (MV.unit : MV D W E S)).world = m.world := rfl
    rw [hwa] at h1 h2 h3
    simp only [shL, callDeps, evalDeps]
    rcases hr : callN (lang Θ moved) byRef (sh d) e [⟨.nullptr, false, false, .xv, m.next⟩] (m.alloc .unit) with ⟨or, m1⟩
    rcases hq : evalN (written byRef) d m.world with ⟨oq, d', env1⟩
    rw [hr, hq] at h1 h2
    rw [hr] at h4
    rw [hq] at h3
    simp only at h1 h2 h3 h4
    subst h3
    have hk1 : Keeps (fun _ => False) m m1 := ((Keeps.refl _ m).alloc _).trans h4 fun a ha h => by omega
    rcases oq with q | x | _ | _ <;> rcases or with r | x' | _ | _ <;> simp only [OutRel] at h1
    · have hn := hk1.next
      obtain ⟨g1, g2, g3, g4⟩ := ih2 m1 es (fun e' he' => by
        have := hes e' (by simp [he'])
        exact ⟨this.1, by omega, by rw [hk1.alive _ this.2.1]; exact this.2.2⟩) (by
        rw [← hval.2]
        apply List.map_congr_left
        intro e' he'
        exact hk1.frame _ (hes e' (by simp [he'])).2.1 (by simp))
      rw [h2] at g1 g2 g3
      simp only
      rcases hq2 : evalDeps (written byRef) ds env1 with ⟨oq2, ds', env2⟩
      rw [hq2] at g1 g2 g3
      simp only at g1 g2 g3 ⊢
      subst g3
      refine ⟨?_, g2, rfl, (hk1.trans g4 fun _ _ h => h).kill _ (Nat.le_refl _)⟩
      refine OutRel.map ?_ g1
      intro rs qs hrq
      refine ⟨?_, hrq.imp fun a b h => PreRes.kill h _⟩
      exact (PreRes.keeps h1 g4).kill _
    · subst h1
      exact ⟨rfl, h2, rfl, hk1.kill _ (Nat.le_refl _)⟩
    · exact ⟨trivial, h2, rfl, hk1.kill _ (Nat.le_refl _)⟩
    · exact ⟨trivial, h2, rfl, hk1.kill _ (Nat.le_refl _)⟩
end

end Pigro.LM
