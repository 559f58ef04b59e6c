import Verif.Spec.BindChain
/-!
# Proof: bound callables bound again (C105)
-/
namespace Pigro.Cxx
variable {V L R : Type}

theorem after_length (g : Nat → V) (k : Nat) (vs : List (V × Bool)) : (after g k vs).length = vs.length := by simp [after]

theorem after_append (g : Nat → V) (k : Nat) (xs ys : List (V × Bool)) : after g k (xs ++ ys) = after g k xs ++ after g (k + xs.length) ys := by
  simp only [after, List.mapIdx_append]
  congr 1
  congr 1
  funext i p
  rw [show k + (i + xs.length) = k + xs.length + i by omega]

theorem after_only (g : Nat → V) (k : Nat) (q : Bool) (vs : List (V × Bool)) : after g k (only q vs) = only q (if q then after g k vs else vs) := by
  apply List.ext_getElem?
  intro i
  cases q <;> simp only [after, only, List.getElem?_mapIdx, List.getElem?_map, Bool.false_eq_true, if_false, if_true] <;> rcases vs[i]? with _ | p <;> simp

theorem after_congr (g g' : Nat → V) (k k' : Nat) (vs : List (V × Bool)) (h : ∀ i < vs.length, g (k + i) = g' (k' + i)) : after g k vs = after g' k' vs := by
  apply List.ext_getElem?
  intro i
  simp only [after, List.getElem?_mapIdx]
  rcases h1 : vs[i]? with _ | p
  · rfl
  · have hi : i < vs.length := by
      rcases Nat.lt_or_ge i vs.length with hi | hi
      · exact hi
      · rw [List.getElem?_eq_none hi] at h1; cases h1
    simp [h i hi]

/-- Arguments that stay the same. -/
theorem after_same (g : Nat → V) (k : Nat) (vs : List (V × Bool)) (h : ∀ i p, vs[i]? = some p → g (k + i) = p.1) : after g k vs = vs := by
  apply List.ext_getElem?
  intro i
  simp only [after, List.getElem?_mapIdx]
  rcases h1 : vs[i]? with _ | p
  · rfl
  · simp [h i p h1]

theorem only_length (q : Bool) (vs : List (V × Bool)) : (only q vs).length = vs.length := by simp [only]

theorem only_values (q : Bool) (vs : List (V × Bool)) : (only q vs).map (·.1) = vs.map (·.1) := by simp [only]

theorem changed_eq (p : Plain V) (s' : V) (g : Nat → V) (n : Nat) :
    p.changed s' g n = ⟨if p.keep then s' else p.s, p.keep, after g 0 p.fs, after g (p.fs.length + n) p.bs⟩ := by
  simp [Plain.changed, after]

theorem hasBack_call (pf : PureFn V L R) : ∀ (c : Chain V) (args : List V) (w : L), (c.call pf args w).2.1.hasBack = c.hasBack
  | .fn s, args, w => rfl
  | .bind .front keep vs inner, args, w => by
    simp only [Chain.call, Chain.hasBack]
    cases keep
    · rfl
    · exact hasBack_call pf inner _ w
  | .bind .back keep vs inner, args, w => rfl

/-- One call. -/
theorem call_plain (pf : PureFn V L R) : ∀ (c : Chain V) (args : List V) (w : L),
    let r := pf c.plain.s (c.plain.fs.map (·.1) ++ args ++ c.plain.bs.map (·.1)) w
    let q := c.call pf args w
    q.1 = r.1 ∧ q.2.1.plain = c.plain.changed r.2.1 r.2.2.1 args.length ∧ q.2.2.2 = r.2.2.2 ∧
      ∀ i < args.length, if c.hasBack then args[i]? = some (q.2.2.1 i) else q.2.2.1 i = r.2.2.1 (c.plain.fs.length + i)
  | .fn s, args, w => by
    simp [Chain.plain, Chain.call, Chain.hasBack, Plain.changed]
  | .bind .front keep vs inner, args, w => by
    obtain ⟨h1, h2, h3, h4⟩ := call_plain pf inner (vs.map (·.1) ++ args) w
    have hb := hasBack_call pf inner (vs.map (·.1) ++ args) w
    simp only [Chain.plain, Chain.call, Chain.hasBack, changed_eq, List.map_append, only_values, List.append_assoc, List.length_append, List.length_map, only_length] at h1 h2 h3 h4 hb ⊢
    generalize inner.call pf (vs.map (·.1) ++ args) w = q at *
    generalize pf inner.plain.s (inner.plain.fs.map (·.1) ++ (vs.map (·.1) ++ (args ++ inner.plain.bs.map (·.1)))) w = r at *
    refine ⟨h1, ?_, h3, ?_⟩
    · have hvs : only (!inner.hasBack) (after q.2.2.1 0 vs) = after r.2.2.1 inner.plain.fs.length (only (!inner.hasBack) vs) := by
        rw [after_only]
        cases hk : inner.hasBack
        · simp only [Bool.not_false, if_true]
          congr 1
          refine after_congr _ _ _ _ _ fun i hi => ?_
          have := h4 i (by omega)
          simpa [hk] using this
        · simp only [Bool.not_true, Bool.false_eq_true, if_false]
          congr 1
          refine after_same _ _ _ fun i p hp => ?_
          have hi : i < vs.length := by
            rcases Nat.lt_or_ge i vs.length with hi | hi
            · exact hi
            · rw [List.getElem?_eq_none hi] at hp; cases hp
          have := h4 i (by omega)
          rw [hk, if_pos rfl, List.getElem?_append_left (by simpa using hi), List.getElem?_map, hp] at this
          simpa using this.symm
      have hq : (if keep then q.2.1 else inner).hasBack = inner.hasBack := by cases keep <;> simp [hb]
      rw [hq, hvs, after_append, only_length, Nat.zero_add]
      simp only [after_only]
      cases keep
      · simp
      · simp only [if_true, h2, Bool.and_true]
        rw [show inner.plain.fs.length + (vs.length + args.length) = inner.plain.fs.length + vs.length + args.length by omega]
    · intro i hi
      have := h4 (vs.length + i) (by omega)
      cases hk : inner.hasBack
      · rw [hk] at this
        simp only [Bool.false_eq_true, if_false] at this ⊢
        rw [this, Nat.add_assoc]
      · rw [hk] at this
        simp only [if_true] at this ⊢
        rw [List.getElem?_append_right (by simp)] at this
        simpa using this
  | .bind .back keep vs inner, args, w => by
    obtain ⟨h1, h2, h3, h4⟩ := call_plain pf inner (args ++ vs.map (·.1)) w
    simp only [Chain.plain, Chain.call, Chain.hasBack, changed_eq, List.map_append, only_values, List.append_assoc, List.length_append, List.length_map, only_length] at h1 h2 h3 h4 ⊢
    generalize inner.call pf (args ++ vs.map (·.1)) w = q at *
    generalize pf inner.plain.s (inner.plain.fs.map (·.1) ++ (args ++ (vs.map (·.1) ++ inner.plain.bs.map (·.1)))) w = r at *
    refine ⟨h1, ?_, h3, ?_⟩
    · have hvs : only (!inner.hasBack) (after q.2.2.1 args.length vs) = after r.2.2.1 (inner.plain.fs.length + args.length) (only (!inner.hasBack) vs) := by
        rw [after_only]
        cases hk : inner.hasBack
        · simp only [Bool.not_false, if_true]
          congr 1
          refine after_congr _ _ _ _ _ fun i hi => ?_
          have := h4 (args.length + i) (by omega)
          rw [hk] at this
          simp only [Bool.false_eq_true, if_false] at this
          rw [this, Nat.add_assoc]
        · simp only [Bool.not_true, Bool.false_eq_true, if_false]
          congr 1
          refine after_same _ _ _ fun i p hp => ?_
          have hi : i < vs.length := by
            rcases Nat.lt_or_ge i vs.length with hi | hi
            · exact hi
            · rw [List.getElem?_eq_none hi] at hp; cases hp
          have := h4 (args.length + i) (by omega)
          rw [hk, if_pos rfl, List.getElem?_append_right (by omega), List.getElem?_map, show args.length + i - args.length = i by omega, hp] at this
          simpa using this.symm
      rw [hvs, after_append]
      simp only [after_only]
      simp
    · intro i hi
      simp [hi]

/-- Any number of calls. -/
theorem calls_plain (pf : PureFn V L R) : ∀ (rest : List (List V)) (c : Chain V) (w : L), c.calls pf rest w = c.plain.calls pf rest w
  | [], _, _ => rfl
  | args :: rest, c, w => by
    obtain ⟨h1, h2, h3, -⟩ := call_plain pf c args w
    simp only [Chain.calls, Plain.calls, h1, h3, calls_plain pf rest, h2]

end Pigro.Cxx
