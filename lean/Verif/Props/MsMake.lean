import Verif.Proofs.MsMake
import Verif.Props.Copies
/-!
# C87: making objects with the Microsoft compiler
-/
namespace Pigro.Cxx
variable {B V L : Type}

/-! ### overload.h -/

/-- **C87**, `overload{ f... }`. Both variants are well-formed for the same types: no type occurs twice. With the constructors of the Microsoft variant every base class holds the value of
the argument of its type, in a new object, as in the aggregate; everything else is as it was, except that arguments were moved from. -/
theorem C87_overload [DecidableEq B] (Λ : Lang B V) (fs : List (Expr B)) (m : Mem V L) (hlt : ∀ e ∈ fs, e.addr < m.next) (hx : Apart fs) :
    (¬ (fs.map (·.base)).Nodup ∧ overloadAggregate Λ fs m = none ∧ overloadConstructors Λ fs m = none) ∨
    ∃ bs m1 bs' m1', overloadAggregate Λ fs m = some (bs, m1) ∧ overloadConstructors Λ fs m = some (bs', m1') ∧
      bs.map (·.1) = fs.map (·.base) ∧ bs'.map (·.1) = TL.partitionT Λ.isEmpty (fs.map (·.base)) ∧
      (∀ e ∈ fs, ∃ a a', (e.base, a) ∈ bs ∧ (e.base, a') ∈ bs' ∧ m1.get a = m.get e.addr ∧ m1'.get a' = m.get e.addr) ∧
      (∀ b ∈ bs', m.next ≤ b.2 ∧ b.2 < m1'.next ∧ m1'.alive b.2 = true) ∧
      (∀ a, m.next ≤ a → a ∉ bs'.map (·.2) → a < m1'.next → m1'.alive a = false) ∧ Agree m.next m1 m1' := by
  obtain ⟨g1, l1, p1⟩ := decayAll_spec Λ fs m hlt hx
  simp only [overloadAggregate, overloadConstructors]
  generalize decayAll Λ fs m = ps at g1 l1 p1 ⊢
  have hb : (ps.1.map fun e => (e.base, e.addr)).map Prod.fst = fs.map (·.base) := by
    apply List.ext_getElem?
    intro i
    simp only [List.getElem?_map]
    rcases hi : fs[i]? with _ | e
    · rw [List.getElem?_eq_none_iff] at hi
      rw [List.getElem?_eq_none (by omega)]; rfl
    · obtain ⟨e', h1, h2⟩ := p1 i e hi
      rw [h1]; simp [h2.1]
  have hplt : ∀ x ∈ ps.1.map (fun e => (e.base, e.addr)), x.2 < ps.2.next := by
    intro x hx
    obtain ⟨e, he, rfl⟩ := List.mem_map.1 hx
    obtain ⟨i, hi⟩ := List.mem_iff_getElem?.1 he
    have hil : i < fs.length := by have := (List.getElem?_eq_some_iff.1 hi).1; omega
    obtain ⟨e', h1, h2⟩ := p1 i fs[i] (by simp [hil])
    rw [hi] at h1
    simp only [Option.some.injEq] at h1
    subst h1
    exact h2.2.2.2.2.2.1
  obtain ⟨g2, -, p2⟩ := copyAll_spec Λ (ps.1.map fun e => (e.base, e.addr)) ps.2 hplt
  generalize copyAll Λ (ps.1.map fun e => (e.base, e.addr)) ps.2 = args at g2 p2 ⊢
  have hb2 : args.1.map Prod.fst = fs.map (·.base) := by
    rw [← hb]
    apply List.ext_getElem?
    intro i
    rw [List.getElem?_map, List.getElem?_map]
    have q := p2.2 i
    have q1 := p2.1
    generalize ps.1.map (fun e => (e.base, e.addr)) = pl at q q1 ⊢
    rcases hi : pl[i]? with _ | x
    · rw [List.getElem?_eq_none_iff] at hi
      rw [List.getElem?_eq_none (by rw [q1]; exact hi)]
    · obtain ⟨y, h1, h2, -⟩ := q x hi
      rw [h1]; simp [h2]
  by_cases hnd : (fs.map (·.base)).Nodup
  · right
    obtain ⟨sel, s1, s2, s3⟩ := Ovl.C40_msvc_construct Λ.isEmpty args.1 (by rw [hb2]; exact hnd)
    have hslt : ∀ x ∈ sel, x.2 < args.2.next := by
      intro x hx
      obtain ⟨i, hi⟩ := List.mem_iff_getElem?.1 ((s3 x).1 hx)
      have hil : i < (ps.1.map fun e => (e.base, e.addr)).length := by rw [← p2.1]; exact (List.getElem?_eq_some_iff.1 hi).1
      obtain ⟨y, h1, -, -, h2, -⟩ := p2.2 i _ (List.getElem?_eq_getElem hil)
      rw [hi] at h1
      simp only [Option.some.injEq] at h1
      subst h1; exact h2
    obtain ⟨g3, -, p3⟩ := copyAll_spec Λ sel args.2 hslt
    simp only [s1, if_pos hnd]
    have hk := copyAll_new Λ sel args.2
    generalize copyAll Λ sel args.2 = r at g3 p3 hk ⊢
    have n1 := g1.next
    have n2 := g2.next
    have n3 := g3.next
    have hnew : ∀ b ∈ r.1, args.2.next ≤ b.2 ∧ b.2 < r.2.next := by
      intro b hb
      obtain ⟨i, hi⟩ := List.mem_iff_getElem?.1 hb
      have hil : i < sel.length := by rw [← p3.1]; exact (List.getElem?_eq_some_iff.1 hi).1
      obtain ⟨y, h1, -, h2, h3, -⟩ := p3.2 i _ (List.getElem?_eq_getElem hil)
      rw [hi] at h1
      simp only [Option.some.injEq] at h1
      subst h1; exact ⟨h2, h3⟩
    refine ⟨_, _, _, _, rfl, rfl, hb, ?_, ?_, ?_, ?_, ⟨?_, ?_, ?_⟩⟩
    · rw [← hb2, ← s2]
      apply List.ext_getElem?
      intro i
      rw [List.getElem?_map, List.getElem?_map]
      rcases hi : sel[i]? with _ | x
      · rw [List.getElem?_eq_none_iff] at hi
        rw [List.getElem?_eq_none (by rw [p3.1]; exact hi)]
      · obtain ⟨y, h1, h2, -⟩ := p3.2 i x hi
        rw [h1]; simp [h2]
    · intro e he
      obtain ⟨i, hi⟩ := List.mem_iff_getElem?.1 he
      obtain ⟨e', h1, h2⟩ := p1 i e hi
      obtain ⟨y, h3, h4, -, h5, h6⟩ := p2.2 i (e'.base, e'.addr) (by simp [h1])
      obtain ⟨j, hj⟩ := List.mem_iff_getElem?.1 ((s3 y).2 (List.mem_of_getElem? h3))
      obtain ⟨z, h7, h8, -, h9, h10⟩ := p3.2 j y hj
      refine ⟨e'.addr, z.2, List.mem_map.2 ⟨e', List.mem_of_getElem? h1, by rw [h2.1]⟩, ?_, h2.2.2.2.2.2.2, ?_⟩
      · have : (e.base, z.2) = z := by
          apply Prod.ext
          · simp only [h8, h4, h2.1]
          · rfl
        rw [this]; exact List.mem_of_getElem? h7
      · show r.2.get z.2 = _
        rw [h10, h6]
        exact h2.2.2.2.2.2.2
    · intro b hb
      obtain ⟨h1, h2⟩ := hnew b hb
      refine ⟨by omega, h2, ?_⟩
      simp only [Mem.killRange, g3.aliveNew b.2 h1 h2, Bool.true_and, Bool.not_eq_true', Bool.and_eq_false_iff, decide_eq_false_iff_not]
      right; omega
    · intro a ha hna hlt'
      have halt : a < args.2.next := by
        refine Nat.lt_of_not_le fun hge => hna ?_
        exact hk.2 a hge (by rw [← hk.1]; exact hlt')
      simp [Mem.killRange, ha, halt]
    · intro a ha
      show r.2.get a = _
      rw [g3.frame a (by omega) (by simp), g2.frame a (by omega) (by simp)]
    · intro a ha
      have : ¬ m.next ≤ a := by omega
      simp only [Mem.killRange, this, decide_false, Bool.false_and, Bool.not_false, Bool.and_true]
      rw [g3.aliveOld a (by omega), g2.aliveOld a (by omega)]
    · show r.2.world = _
      rw [g3.world, g2.world]
  · left
    refine ⟨hnd, by simp [hnd], ?_⟩
    rw [constructMsvc_none Λ.isEmpty args.1 (by rw [hb2]; exact hnd)]

/-- **C87**, copies made by `overload{ f... }`: with other compilers every argument is copied or moved once into its base class; with the Microsoft variant it is so into a parameter, and the
parameter is then copied twice. So a callable that can only be moved can be used with other compilers only. -/
theorem C87_overload_copies [DecidableEq B] (Λ : Lang B V) (fs : List (Expr B)) (m : Mem V L) (hlt : ∀ e ∈ fs, e.addr < m.next) (hx : Apart fs)
    (bs : List (B × Nat)) (m1 : Mem V L) (bs' : List (B × Nat)) (m1' : Mem V L) (h : overloadAggregate Λ fs m = some (bs, m1))
    (h' : overloadConstructors Λ fs m = some (bs', m1')) :
    Made m m1 (fs.map Expr.made) ∧
    ∃ as : List Nat, Made m m1' (fs.map Expr.made ++ as.map fun a => (false, a)) ∧ as.length = 2 * fs.length ∧ ∀ a ∈ as, m.next ≤ a := by
  obtain ⟨g1, l1, p1⟩ := decayAll_spec Λ fs m hlt hx
  have d1 := made_decayAll Λ fs m
  simp only [overloadAggregate, Option.ite_none_right_eq_some, Option.some.injEq, Prod.mk.injEq] at h
  simp only [overloadConstructors] at h'
  generalize decayAll Λ fs m = ps at g1 l1 p1 d1 h h'
  obtain ⟨-, -, h⟩ := h
  rw [← h]
  refine ⟨d1, ?_⟩
  have hp : ∀ x ∈ ps.1.map (fun e => (e.base, e.addr)), m.next ≤ x.2 ∧ x.2 < ps.2.next := by
    intro x hx
    obtain ⟨e, he, rfl⟩ := List.mem_map.1 hx
    obtain ⟨i, hi⟩ := List.mem_iff_getElem?.1 he
    have hil : i < fs.length := by have := (List.getElem?_eq_some_iff.1 hi).1; omega
    obtain ⟨e', h1, h2⟩ := p1 i fs[i] (by simp [hil])
    rw [hi] at h1
    simp only [Option.some.injEq] at h1
    subst h1
    exact h2.2.2.2.2.imp_right And.left
  have hlen : (ps.1.map fun e => (e.base, e.addr)).length = fs.length := by rw [List.length_map, l1]
  generalize ps.1.map (fun e => (e.base, e.addr)) = pl at hp h' hlen
  obtain ⟨g2, d2, p2⟩ := copyAll_spec Λ pl ps.2 fun x hx => (hp x hx).2
  generalize copyAll Λ pl ps.2 = args at g2 d2 p2 h'
  split at h'
  · simp at h'
  · rename_i sel hs
    simp only [Option.some.injEq, Prod.mk.injEq] at h'
    have n1 := g1.next
    have hargs : ∀ x ∈ args.1, ps.2.next ≤ x.2 ∧ x.2 < args.2.next := by
      intro x hx
      obtain ⟨i, hi⟩ := List.mem_iff_getElem?.1 hx
      have hil : i < pl.length := by rw [← p2.1]; exact (List.getElem?_eq_some_iff.1 hi).1
      obtain ⟨y, h1, -, h2, h3, -⟩ := p2.2 i _ (List.getElem?_eq_getElem hil)
      rw [hi] at h1
      simp only [Option.some.injEq] at h1
      subst h1; exact ⟨h2, h3⟩
    have hnd : (args.1.map (·.1)).Nodup := by
      refine Classical.byContradiction fun hn => ?_
      rw [constructMsvc_none Λ.isEmpty args.1 hn] at hs
      simp at hs
    obtain ⟨sel', s1, s2, s3⟩ := Ovl.C40_msvc_construct Λ.isEmpty args.1 hnd
    rw [s1] at hs
    simp only [Option.some.injEq] at hs
    subst hs
    have hsl : sel'.length = fs.length := by
      have h1 := congrArg List.length s2
      obtain ⟨_, _, _, hperm, _⟩ := TL.C38_stable_partition (args.1.map (·.1)) (TL.predicate Λ.isEmpty)
      have h2 := hperm.length_eq
      rw [List.length_map] at h1
      rw [h1, TL.partitionT, h2, List.length_map, p2.1, hlen]
    obtain ⟨g3, d3, -⟩ := copyAll_spec Λ sel' args.2 fun x hx => (hargs x ((s3 x).1 hx)).2
    refine ⟨pl.map (·.2) ++ sel'.map (·.2), ?_, by simp [hlen, hsl]; omega, ?_⟩
    · have hm := (d1.trans d2).trans d3
      obtain ⟨new, q1, q2⟩ := hm
      refine ⟨new, ?_, ?_⟩
      · rw [← h'.2, ← q1]; rfl
      · rw [q2]; simp [List.append_assoc, Function.comp_def]
    · intro a ha
      rcases List.mem_append.1 ha with ha | ha
      · obtain ⟨x, hx, rfl⟩ := List.mem_map.1 ha
        exact (hp x hx).1
      · obtain ⟨x, hx, rfl⟩ := List.mem_map.1 ha
        have := (hargs x ((s3 x).1 hx)).1
        omega

/-- Two callables, an lvalue and a temporary. With the Microsoft variant the one of empty type comes first; six constructor calls instead of two. -/
example : ∃ bs m1 bs' m1' l l', overloadAggregate exLang [⟨"f", false, false, .lv, 0⟩, ⟨"E", false, false, .xv, 1⟩] (memOf [5, 0]) = some (bs, m1) ∧
    overloadConstructors exLang [⟨"f", false, false, .lv, 0⟩, ⟨"E", false, false, .xv, 1⟩] (memOf [5, 0]) = some (bs', m1') ∧
    bs.map (·.1) = ["f", "E"] ∧ bs'.map (·.1) = ["E", "f"] ∧ Made (memOf [5, 0]) m1 l ∧ l = [(false, 0), (true, 1)] ∧ Made (memOf [5, 0]) m1' l' ∧ l'.length = 6 := by
  have hlt : ∀ e ∈ [(⟨"f", false, false, .lv, 0⟩ : Expr String), ⟨"E", false, false, .xv, 1⟩], e.addr < (memOf [5, 0]).next := by simp [memOf]
  have hap : Apart [(⟨"f", false, false, .lv, 0⟩ : Expr String), ⟨"E", false, false, .xv, 1⟩] := by simp [Apart]
  rcases C87_overload exLang [⟨"f", false, false, .lv, 0⟩, ⟨"E", false, false, .xv, 1⟩] (memOf [5, 0]) hlt hap with ⟨h, -⟩ | ⟨bs, m1, bs', m1', h1, h2, h3, h4, -⟩
  · simp at h
  · obtain ⟨c1, as, c2, c3, -⟩ := C87_overload_copies exLang _ _ hlt hap bs m1 bs' m1' h1 h2
    exact ⟨bs, m1, bs', m1', _, _, h1, h2, h3, h4.trans (by decide), c1, by decide, c2, by simp [c3]⟩

/-! ### compressed_tuple.h, bind_tuple.h -/

theorem Made.unique {m m' : Mem V L} {l l' : List (Bool × Nat)} (h : Made m m' l) (h' : Made m m' l') : l = l' := by
  obtain ⟨n, h1, h2⟩ := h
  obtain ⟨n', h1', h2'⟩ := h'
  rw [h1, List.append_cancel_left_eq] at h1'
  rw [← h2, ← h2', h1']

/-- **C87**, `compressed_tuple{ v... } >> f` and `<< f`: well-formed with both, and what is made with the Microsoft variant holds the same: elements of the same types with the same values, the
same references; its objects are new and exist; all objects from before and the world are as with the other compilers; and there are as
many objects as there: all the others made on the way have been destroyed. -/
theorem C87_bound [DecidableEq B] (Λ : Lang B V) (isCT : B → Bool) (tb : B) (dir : Dir) (vs : List (Expr B)) (f : Expr B) (m : Mem V L) (hf : f.addr < m.next) :
    (makeBound Λ isCT tb dir vs f m = none ∧ makeBoundMs Λ isCT tb dir vs f m = none) ∨
    ∃ b m1 b' m1', makeBound Λ isCT tb dir vs f m = some (b, m1) ∧ makeBoundMs Λ isCT tb dir vs f m = some (b', m1') ∧
      b'.dir = b.dir ∧ b'.parts.map (Elem.view m1') = b.parts.map (Elem.view m1) ∧ Held m.next m1' b'.parts ∧ Agree m.next m1 m1' ∧ m1'.living = m1.living := by
  rcases makeBound_twin Λ isCT tb dir vs f m hf with h | ⟨n, b, m1, b', m1', hn, h1, h2, h3, h4, h5⟩
  · exact .inl h
  · refine .inr ⟨b, m1, b', m1', h1, h2, h4.trans h3.symm, h5.view, ⟨?_, ?_⟩,
      ⟨fun a ha => h5.agree.get a (by omega), fun a ha => h5.agree.alive a (by omega), h5.agree.world⟩, h5.living⟩
    · intro i ty a hi hl
      have := h5.fresh'.range a (mem_ownedAll.2 ⟨_, List.mem_of_getElem? hi, Elem.owned_stored ty a hl⟩)
      exact ⟨by omega, this.2⟩
    · intro i j ty ty' a hi hj hl hl'
      have hp := h5.fresh'.pairwise
      rw [List.pairwise_iff_getElem] at hp
      obtain ⟨ii, ei⟩ := List.getElem?_eq_some_iff.1 hi
      obtain ⟨jj, ej⟩ := List.getElem?_eq_some_iff.1 hj
      rcases Nat.lt_trichotomy i j with hij | hij | hij
      · exact absurd rfl (hp i j ii jj hij a a (by rw [ei]; exact Elem.owned_stored ty a hl) (by rw [ej]; exact Elem.owned_stored ty' a hl'))
      · exact hij
      · exact absurd rfl (hp j i jj ii hij a a (by rw [ej]; exact Elem.owned_stored ty' a hl') (by rw [ei]; exact Elem.owned_stored ty a hl))

/-- **C87**, copies: exactly the values are copied, of the objects there were before, each once, and at most the callable is moved from, as with other compilers (C64). But of the objects made
on the way each value that is not of empty type is copied eight more times, and the tuple and a callable passed as an rvalue four times; the moves are as with other compilers. -/
theorem C87_bound_copies [DecidableEq B] (Λ : Lang B V) (isCT : B → Bool) (tb : B) (dir : Dir) (vs : List (Expr B)) (f : Expr B) (m : Mem V L)
    (hlt : ∀ e ∈ vs, e.addr < m.next) (hflt : f.addr < m.next) (hf : f.cat = .xv → f.c = false) (hE : Λ.isEmpty tb = vs.all fun e => Λ.isEmpty e.base)
    (b : Bound B) (m' : Mem V L) (h : makeBoundMs Λ isCT tb dir vs f m = some (b, m')) :
    let k := (vs.filter fun e => !Λ.isEmpty e.base).length
    let kf := if Λ.isEmpty f.base then 0 else if f.cat = .xv then 1 else 0
    let kt := if Λ.isEmpty tb then 0 else 1
    ∃ l, Made m m' l ∧ (copied l).filter (· < m.next) = (vs.map fun e => e.addr) ∧ (copied l).length = vs.length + 8 * k + 4 * kf + 4 * kt ∧
      (movedFrom l).filter (· < m.next) = (if kf = 1 then [f.addr] else []) ∧ (movedFrom l).length = 2 * k + kf + kt := by
  intro k kf kt
  rcases C87_bound Λ isCT tb dir vs f m hflt with ⟨-, h2⟩ | ⟨b0, m1, b', m1', h1, h2, -⟩
  · rw [h2] at h; simp at h
  · rw [h2] at h
    simp only [Option.some.injEq, Prod.mk.injEq] at h
    obtain ⟨rfl, rfl⟩ := h
    obtain ⟨l, l', q1, q2, q3, q4, q5, q6⟩ := makeBound_extra Λ isCT tb dir vs f m hflt hE b0 m1 b' m1' h1 h2
    obtain ⟨temps, tuple, stored, r1, r2, r3, r4⟩ := made_makeBound Λ isCT tb dir vs f m b0 m1 h1
    have hl := Made.unique q1 r1
    obtain ⟨l2, s1, s2, s3, -⟩ := C64_one_copy_partial Λ isCT tb dir vs f m b0 m1 hf hE h1
    have hl2 := Made.unique q1 s1
    refine ⟨l', q2, ?_, ?_, ?_, ?_⟩
    · rw [q3, hl2, s2, List.filter_eq_self]
      intro a ha
      obtain ⟨e, he, rfl⟩ := List.mem_map.1 ha
      simpa using hlt e he
    · rw [q6, hl2, s2, List.length_map]
      simp only [k, kf, kt]; omega
    · rw [q4, hl]
      have hnew : ∀ as : List Nat, (∀ a ∈ as, m.next ≤ a) → as.filter (· < m.next) = [] := by
        intro as has
        rw [List.filter_eq_nil_iff]
        intro a ha
        have := has a ha
        simp only [decide_eq_true_eq]; omega
      have hfl : (movedFrom (if Λ.isEmpty f.base then [] else (rvalues [f]).map Expr.made)).filter (· < m.next) = if kf = 1 then [f.addr] else [] := by
        simp only [kf]
        by_cases he : Λ.isEmpty f.base = true
        · simp [he, movedFrom]
        · by_cases hc : f.cat = .xv
          · simp [he, rvalues, hc, Expr.made, hf hc, movedFrom, hflt]
          · simp [he, rvalues, hc, movedFrom]
      have htl : (movedFrom (if Λ.isEmpty tb then [] else (tuple :: stored).map fun a => (true, a))).filter (· < m.next) = [] := by
        by_cases he : Λ.isEmpty tb = true
        · simp [he, movedFrom]
        · rw [if_neg he, movedFrom_moves]
          exact hnew _ fun a ha => r2 a (List.mem_append_right _ ha)
      rw [movedFrom_append, movedFrom_append, movedFrom_append, List.filter_append, List.filter_append, List.filter_append, hfl, htl, movedFrom_copies, movedFrom_moves,
        hnew temps fun a ha => r2 a (List.mem_append_left _ ha)]
      simp
    · rw [q5, hl2, s3]

/-- `compressed_tuple{ x, std::move(y), E{} } >> std::move(f)`: 3 + 8 * 2 + 4 + 4 copies with the Microsoft compiler, 3 with others (see C64); 6 moves with both. -/
example : ∃ b m' l, makeBoundMs exLang (fun _ => false) "tuple" .front
      [⟨"int", false, false, .lv, 0⟩, ⟨"int", false, false, .xv, 1⟩, ⟨"E", false, false, .xv, 2⟩] ⟨"f", false, false, .xv, 3⟩ (memOf [5, 6, 0, 8]) = some (b, m') ∧
    Made (memOf [5, 6, 0, 8]) m' l ∧ (copied l).length = 27 ∧ (copied l).filter (· < 4) = [0, 1, 2] ∧ (movedFrom l).length = 6 ∧ (movedFrom l).filter (· < 4) = [3] := by
  rcases C87_bound exLang (fun _ => false) "tuple" .front [⟨"int", false, false, .lv, 0⟩, ⟨"int", false, false, .xv, 1⟩, ⟨"E", false, false, .xv, 2⟩]
      ⟨"f", false, false, .xv, 3⟩ (memOf [5, 6, 0, 8]) (by simp [memOf]) with ⟨h, -⟩ | ⟨b, m1, b', m1', -, h, -⟩
  · exact absurd (congrArg Option.isSome h) (by decide)
  · obtain ⟨l, h1, h2, h3, h4, h5⟩ := C87_bound_copies exLang (fun _ => false) "tuple" .front
      [⟨"int", false, false, .lv, 0⟩, ⟨"int", false, false, .xv, 1⟩, ⟨"E", false, false, .xv, 2⟩] ⟨"f", false, false, .xv, 3⟩ (memOf [5, 6, 0, 8])
      (by simp [memOf]) (by simp [memOf]) (by simp) (by decide) b' m1' h
    exact ⟨b', m1', l, h, h1, h3, h2, h5, h4⟩

end Pigro.Cxx
