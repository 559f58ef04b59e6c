import Verif.Spec.Moving
import Verif.Proofs.LazyRun
import Verif.Proofs.LazyMore
/-!
# Proofs about moves
-/
namespace Pigro
variable {D W E S : Type}

/-- Arguments that do not get in each other's way. -/
def MvApart (deps : List (MvArg D W E S)) : Prop :=
  deps.Pairwise fun a b => (∀ i ∈ a.moves, i ∉ b.names) ∧ (∀ i ∈ b.moves, i ∉ a.names)

theorem moves_names (a : MvArg D W E S) (i : Nat) (h : i ∈ a.moves) : i ∈ a.names := by
  rcases a with (v | u | j) | j
  · simp [MvArg.moves] at h
  · simp [MvArg.moves] at h
  · simp [MvArg.moves] at h
  · exact h

theorem movesApart_spec : ∀ (deps : List (MvArg D W E S)), movesApart deps = true → MvApart deps := by
  have key : ∀ (deps : List (MvArg D W E S)), (∀ i ∈ deps.flatMap MvArg.moves, (deps.flatMap MvArg.names).count i ≤ 1) → MvApart deps := by
    intro deps
    induction deps with
    | nil => intro _; exact List.Pairwise.nil
    | cons a as ih =>
      intro h
      have hn : ∀ i, ((a :: as).flatMap MvArg.names).count i = a.names.count i + (as.flatMap MvArg.names).count i := by
        intro i; rw [List.flatMap_cons, List.count_append]
      refine List.pairwise_cons.2 ⟨?_, ih ?_⟩
      · intro b hb
        constructor
        · intro i hi hib
          have := h i (List.mem_flatMap.2 ⟨a, by simp, hi⟩)
          rw [hn] at this
          have h1 := List.count_pos_iff.2 (moves_names a i hi)
          have h2 : 0 < (as.flatMap MvArg.names).count i := List.count_pos_iff.2 (List.mem_flatMap.2 ⟨b, hb, hib⟩)
          omega
        · intro i hi hia
          have := h i (List.mem_flatMap.2 ⟨b, by simp [hb], hi⟩)
          rw [hn] at this
          have h1 := List.count_pos_iff.2 hia
          have h2 : 0 < (as.flatMap MvArg.names).count i := List.count_pos_iff.2 (List.mem_flatMap.2 ⟨b, hb, moves_names b i hi⟩)
          omega
      · intro i hi
        have := h i (by rw [List.flatMap_cons]; exact List.mem_append.2 (.inr hi))
        rw [hn] at this
        omega
  intro deps h
  apply key
  intro i hi
  have := List.all_eq_true.1 h i hi
  simp only [beq_iff_eq] at this
  omega

/-- What is left of the homes. -/
theorem homes_get (l : List Nat) : ∀ (hs : List Home) (i : Nat),
    (l.foldl (fun hs i => hs.set i .movedFrom) hs)[i]? = if i ∈ l then (if i < hs.length then some .movedFrom else none) else hs[i]? := by
  induction l with
  | nil => intro hs i; simp
  | cons a l ih =>
    intro hs i
    rw [List.foldl_cons, ih]
    by_cases h : i ∈ l
    · simp [h]
    · by_cases h' : i = a
      · subst h'
        simp [h, List.getElem?_set]
      · simp [h, h', List.getElem?_set_ne (Ne.symm h')]

theorem homes_length (l : List Nat) : ∀ (hs : List Home), (l.foldl (fun hs i => hs.set i .movedFrom) hs).length = hs.length := by
  induction l with
  | nil => intro hs; rfl
  | cons a l ih => intro hs; rw [List.foldl_cons, ih, List.length_set]

/-- The program with moves and the one without. -/
structure MvRel (hs : List Home) (t : MvState D W E S) (s : State D W E S) : Prop where
  env : t.env = s.env
  len : hs.length = t.vars.length
  holds : ∀ i k : Nat, hs[i]? = some (.holds k) → ∃ o, t.vars[i]? = some (some o) ∧ s.vars[k]? = some o
  moved : ∀ i : Nat, hs[i]? = some .movedFrom → ∃ o, t.vars[i]? = some (some o)
  inj : ∀ i j k : Nat, hs[i]? = some (.holds k) → hs[j]? = some (.holds k) → i = j
  facade : ∀ o ∈ s.vars, ∃ x, o = .unregularized x

theorem holder_eq {hs : List Home} {i k : Nat} : holder hs i = some k ↔ hs[i]? = some (.holds k) := by
  unfold holder
  split <;> simp_all

/-- The arguments. -/
theorem mvResolve_spec (μ : Moved D S) (hs : List Home) (os : List (Obj D W E S)) : ∀ (deps : List (MvArg D W E S)) (as : List (ArgRef D W E S))
    (vars : List (Option (Obj D W E S))), plainArgs hs deps = some as → MvApart deps →
    (∀ i ∈ deps.flatMap MvArg.names, ∀ k, hs[i]? = some (.holds k) → ∃ o, vars[i]? = some (some o) ∧ os[k]? = some o) →
    ∃ ds vars', mvResolve μ vars deps = .ok (ds, vars') ∧ resolveAll os as = some ds ∧ vars'.length = vars.length ∧
      (∀ i, i ∉ deps.flatMap MvArg.moves → vars'[i]? = vars[i]?) ∧ (∀ i ∈ deps.flatMap MvArg.moves, ∃ o, vars'[i]? = some (some o))
  | [], as, vars, hp, _, _ => by
    simp only [plainArgs, Option.some.injEq] at hp
    subst hp
    exact ⟨[], vars, rfl, rfl, rfl, fun _ _ => rfl, by simp⟩
  | a :: deps, as, vars, hp, ha, hv => by
    rw [MvApart, List.pairwise_cons] at ha
    rcases h1 : a.plain hs with _ | b
    · simp [plainArgs, h1] at hp
    rcases h2 : plainArgs hs deps with _ | bs
    · simp [plainArgs, h1, h2] at hp
    simp only [plainArgs, h1, h2, Option.some.injEq] at hp
    subst hp
    rcases a with (v | u | i) | i
    · simp only [MvArg.plain, Option.some.injEq] at h1
      subst h1
      obtain ⟨ds, vars', r1, r2, r3, r4, r5⟩ := mvResolve_spec μ hs os deps bs vars h2 ha.2 fun i hi => hv i (by simp [MvArg.names] at hi ⊢; exact hi)
      exact ⟨.value v :: ds, vars', by simp [mvResolve, r1], by simp [resolveAll, ArgRef.resolve, r2], r3, fun i hi => r4 i (by simpa [MvArg.moves] using hi),
        fun i hi => r5 i (by simpa [MvArg.moves] using hi)⟩
    · simp only [MvArg.plain] at h1
      split at h1
      · cases h1
      simp only [Option.some.injEq] at h1
      subst h1
      obtain ⟨ds, vars', r1, r2, r3, r4, r5⟩ := mvResolve_spec μ hs os deps bs vars h2 ha.2 fun i hi => hv i (by simp [MvArg.names] at hi ⊢; exact hi)
      exact ⟨.function u :: ds, vars', by simp [mvResolve, r1], by simp [resolveAll, ArgRef.resolve, r2], r3, fun i hi => r4 i (by simpa [MvArg.moves] using hi),
        fun i hi => r5 i (by simpa [MvArg.moves] using hi)⟩
    · rcases hk : holder hs i with _ | k
      · simp [MvArg.plain, hk] at h1
      simp only [MvArg.plain, hk, Option.map_some, Option.some.injEq] at h1
      subst h1
      obtain ⟨o, ho, ho'⟩ := hv i (by simp [MvArg.names]) k (holder_eq.1 hk)
      obtain ⟨ds, vars', r1, r2, r3, r4, r5⟩ := mvResolve_spec μ hs os deps bs vars h2 ha.2 fun j hj => hv j (by
        rw [List.flatMap_cons]; exact List.mem_append.2 (.inr hj))
      exact ⟨.lazyObj o :: ds, vars', by simp [mvResolve, ho, r1], by simp [resolveAll, ArgRef.resolve, ho', r2], r3,
        fun j hj => r4 j (by simpa [MvArg.moves] using hj), fun j hj => r5 j (by simpa [MvArg.moves] using hj)⟩
    · rcases hk : holder hs i with _ | k
      · simp [MvArg.plain, hk] at h1
      simp only [MvArg.plain, hk, Option.map_some, Option.some.injEq] at h1
      subst h1
      obtain ⟨o, ho, ho'⟩ := hv i (by simp [MvArg.names]) k (holder_eq.1 hk)
      have hni : i ∉ deps.flatMap MvArg.names := by
        intro hi
        obtain ⟨b, hb, hib⟩ := List.mem_flatMap.1 hi
        exact (ha.1 b hb).1 i (by simp [MvArg.moves]) hib
      have hnm : i ∉ deps.flatMap MvArg.moves := by
        intro hi
        obtain ⟨b, hb, hib⟩ := List.mem_flatMap.1 hi
        exact hni (List.mem_flatMap.2 ⟨b, hb, moves_names b i hib⟩)
      obtain ⟨ds, vars', r1, r2, r3, r4, r5⟩ := mvResolve_spec μ hs os deps bs (vars.set i (some (o.movedFrom μ))) h2 ha.2 fun j hj l hl => by
        have hij : i ≠ j := by rintro rfl; exact hni hj
        rw [List.getElem?_set_ne hij]
        exact hv j (by rw [List.flatMap_cons]; exact List.mem_append.2 (.inr hj)) l hl
      refine ⟨.lazyObj o :: ds, vars', by simp [mvResolve, ho, r1], by simp [resolveAll, ArgRef.resolve, ho', r2], by rw [r3, List.length_set], ?_, ?_⟩
      · intro j hj
        simp only [List.flatMap_cons, MvArg.moves, List.cons_append, List.nil_append, List.mem_cons, not_or] at hj
        rw [r4 j hj.2, List.getElem?_set_ne (Ne.symm hj.1)]
      · intro j hj
        simp only [List.flatMap_cons, MvArg.moves, List.cons_append, List.nil_append, List.mem_cons] at hj
        rcases hj with rfl | hj
        · exact ⟨o.movedFrom μ, by rw [r4 j hnm]; simp [(List.getElem?_eq_some_iff.1 ho).1]⟩
        · exact r5 j hj

variable [CxxData D]

/-- Such programs compile. -/
theorem plain_compiles (hs : List Home) (f : UFn D W E S) (os : List (Obj D W E S)) (hf : ∀ o ∈ os, ∃ x, o = .unregularized x) :
    ∀ (deps : List (MvArg D W E S)) (as : List (ArgRef D W E S)) (ds : List (DepArg D W E S)), plainArgs hs deps = some as → resolveAll os as = some ds →
      ∃ xs, ensureAll ds = some xs
  | [], as, ds, hp, hr => by
    simp only [plainArgs, Option.some.injEq] at hp
    subst hp
    simp only [resolveAll, Option.some.injEq] at hr
    subst hr
    exact ⟨[], rfl⟩
  | a :: deps, as, ds, hp, hr => by
    rcases h1 : a.plain hs with _ | b
    · simp [plainArgs, h1] at hp
    rcases h2 : plainArgs hs deps with _ | bs
    · simp [plainArgs, h1, h2] at hp
    simp only [plainArgs, h1, h2, Option.some.injEq] at hp
    subst hp
    rcases h3 : b.resolve os with _ | d
    · simp [resolveAll, h3] at hr
    rcases h4 : resolveAll os bs with _ | ds'
    · simp [resolveAll, h3, h4] at hr
    simp only [resolveAll, h3, h4, Option.some.injEq] at hr
    subst hr
    obtain ⟨xs, hx⟩ := plain_compiles hs f os hf deps bs ds' h2 h4
    have hvar : ∀ k, b = .var k → ∃ x, ensureLazy d = some x := by
      rintro k rfl
      rcases h5 : os[k]? with _ | o
      · simp [ArgRef.resolve, h5] at h3
      simp only [ArgRef.resolve, h5, Option.map_some, Option.some.injEq] at h3
      subst h3
      obtain ⟨x, rfl⟩ := hf o (List.mem_of_getElem? h5)
      exact ⟨_, rfl⟩
    have : ∃ x, ensureLazy d = some x := by
      rcases a with (v | u | i) | i
      · simp only [MvArg.plain, Option.some.injEq] at h1
        subst h1
        simp only [ArgRef.resolve, Option.some.injEq] at h3
        subst h3
        exact ⟨_, rfl⟩
      · simp only [MvArg.plain] at h1
        split at h1
        · cases h1
        rename_i hv
        simp only [Option.some.injEq] at h1
        subst h1
        simp only [ArgRef.resolve, Option.some.injEq] at h3
        subst h3
        exact ⟨detailLazy (.wrapDep u) [.lazyValue (.data CxxData.zero) true], by
          show (if u.ret = .void then none else _) = _
          rw [if_neg hv]⟩
      · rcases hk : holder hs i with _ | k
        · simp [MvArg.plain, hk] at h1
        simp only [MvArg.plain, hk, Option.map_some, Option.some.injEq] at h1
        exact hvar k h1.symm
      · rcases hk : holder hs i with _ | k
        · simp [MvArg.plain, hk] at h1
        simp only [MvArg.plain, hk, Option.map_some, Option.some.injEq] at h1
        exact hvar k h1.symm
    obtain ⟨x, hx'⟩ := this
    exact ⟨x :: xs, by simp [ensureAll, hx', hx]⟩

/-- Calls keep the outermost wrapper. -/
theorem call0_facade_kept (g : Glue) (x : Obj D W E S) (env : Env D W S) : ∃ y, (call0 g (.unregularized x) env).2.1 = .unregularized y := by
  simp only [call0]
  exact ⟨_, rfl⟩

theorem evalN_facade_kept (g : Glue) (x : Obj D W E S) (env : Env D W S) : ∃ y, (evalN g (.unregularized x) env).2.1 = .unregularized y := by
  simp only [evalN]
  exact ⟨_, rfl⟩

omit [CxxData D] in
/-- One variable was called. -/
theorem MvRel.set {hs : List Home} {t : MvState D W E S} {s : State D W E S} (h : MvRel hs t s) (i k : Nat) (hi : hs[i]? = some (.holds k)) (o' : Obj D W E S)
    (ho' : ∃ x, o' = .unregularized x) (env : Env D W S) : MvRel hs ⟨t.vars.set i (some o'), env⟩ ⟨s.vars.set k o', env⟩ := by
  obtain ⟨o, h1, h2⟩ := h.holds i k hi
  have hil := (List.getElem?_eq_some_iff.1 h1).1
  have hkl := (List.getElem?_eq_some_iff.1 h2).1
  refine ⟨rfl, by simpa using h.len, ?_, ?_, h.inj, ?_⟩
  · intro j l hj
    by_cases hij : i = j
    · subst hij
      rw [hi] at hj
      cases hj
      exact ⟨o', by simp [hil], by simp [hkl]⟩
    · have hkl' : k ≠ l := by rintro rfl; exact hij (h.inj i j k hi hj)
      simp only [List.getElem?_set_ne hij, List.getElem?_set_ne hkl']
      exact h.holds j l hj
  · intro j hj
    have hij : i ≠ j := by rintro rfl; rw [hi] at hj; cases hj
    simp only [List.getElem?_set_ne hij]
    exact h.moved j hj
  · intro x hx
    rcases List.mem_or_eq_of_mem_set hx with hx | rfl
    · exact h.facade x hx
    · exact ho'

theorem snoc_get {α : Type} (l : List α) (x : α) (i : Nat) : (l ++ [x])[i]? = if i = l.length then some x else l[i]? := by
  by_cases h : i = l.length
  · subst h; simp
  · rw [if_neg h]
    by_cases h' : i < l.length
    · rw [List.getElem?_append_left h']
    · rw [List.getElem?_eq_none (by simp; omega), List.getElem?_eq_none (by omega)]

omit [CxxData D] in
/-- A new variable in both. `hs'`: some variables have been moved from meanwhile. -/
theorem MvRel.snoc {hs hs' : List Home} {t : MvState D W E S} {s : State D W E S} (h : MvRel hs t s) (vars' : List (Option (Obj D W E S)))
    (hl : hs'.length = hs.length) (hl' : vars'.length = t.vars.length) (hh : ∀ i k : Nat, hs'[i]? = some (.holds k) → hs[i]? = some (.holds k) ∧ vars'[i]? = t.vars[i]?)
    (hm : ∀ i : Nat, hs'[i]? = some .movedFrom → ∃ o, vars'[i]? = some (some o)) (o : Obj D W E S) (ho : ∃ x, o = .unregularized x) :
    MvRel (hs' ++ [.holds s.vars.length]) ⟨vars' ++ [some o], t.env⟩ ⟨s.vars ++ [o], s.env⟩ := by
  have hlen := h.len
  refine ⟨h.env, by simp [hl, hl', hlen], ?_, ?_, ?_, ?_⟩
  · intro i k hi
    rw [snoc_get] at hi
    simp only [snoc_get]
    split at hi
    · rename_i hi'
      cases hi
      rw [if_pos (by omega), if_pos rfl]
      exact ⟨o, rfl, rfl⟩
    · rename_i hi'
      obtain ⟨h1, h2⟩ := hh i k hi
      obtain ⟨x, h3, h4⟩ := h.holds i k h1
      have := (List.getElem?_eq_some_iff.1 h4).1
      rw [if_neg (by omega), if_neg (by omega), h2]
      exact ⟨x, h3, h4⟩
  · intro i hi
    rw [snoc_get] at hi
    simp only [snoc_get]
    split at hi
    · cases hi
    · rw [if_neg (by omega)]
      exact hm i hi
  · intro i j k hi hj
    rw [snoc_get] at hi hj
    split at hi <;> split at hj
    · omega
    · cases hi
      obtain ⟨x, _, h4⟩ := h.holds j _ (hh j _ hj).1
      have := (List.getElem?_eq_some_iff.1 h4).1
      omega
    · cases hj
      obtain ⟨x, _, h4⟩ := h.holds i _ (hh i _ hi).1
      have := (List.getElem?_eq_some_iff.1 h4).1
      omega
    · exact h.inj i j k (hh i k hi).1 (hh j k hj).1
  · intro x hx
    rcases List.mem_append.1 hx with hx | hx
    · exact h.facade x hx
    · rw [List.mem_singleton.1 hx]; exact ho

theorem pigroLazy_some (f : UFn D W E S) (ds : List (DepArg D W E S)) (xs : List (Obj D W E S)) (h : ensureAll ds = some xs) :
    pigroLazy f ds = some (.unregularized (.unwrapped (detailLazy (.regularized f) xs))) := by
  simp [pigroLazy, h]

/-- **Moves change nothing.** -/
theorem mv_sim (g : Glue) (μ : Moved D S) : ∀ (ops : List (MvOp D W E S)) (hs : List Home) (ops' : List (Op D W E S)) (t : MvState D W E S) (s : State D W E S),
    MvRel hs t s → unmoved hs s.vars.length ops = some ops' →
    (mvRun g μ t ops).1 = withMoves .unit ops (run g s ops').1 ∧ (mvRun g μ t ops).2.env = (run g s ops').2.env := by
  intro ops
  induction ops with
  | nil =>
    intro hs ops' t s h hu
    simp only [unmoved, Option.some.injEq] at hu
    subst hu
    exact ⟨rfl, h.env⟩
  | cons op ops ih =>
    intro hs ops' t s h hu
    rcases op with ⟨f, deps⟩ | i | i | i | i | i | p
    · simp only [unmoved] at hu
      split at hu
      · rename_i as hp
        split at hu
        · rename_i hap
          obtain ⟨rest, hu', rfl⟩ := Option.map_eq_some_iff.1 hu
          obtain ⟨ds, vars', r1, r2, r3, r4, r5⟩ := mvResolve_spec μ hs s.vars deps as t.vars hp (movesApart_spec deps hap) fun i _ k hk => h.holds i k hk
          obtain ⟨xs, hx⟩ := plain_compiles hs f s.vars h.facade deps as ds hp r2
          have hm := pigroLazy_some f ds xs hx
          have hrel := h.snoc (hs' := (deps.flatMap MvArg.moves).foldl (fun hs i => hs.set i .movedFrom) hs) vars' (homes_length _ _) r3 (by
            intro i k hi
            rw [homes_get] at hi
            split at hi
            · split at hi <;> cases hi
            · rename_i hn
              exact ⟨hi, r4 i hn⟩) (by
            intro i hi
            rw [homes_get] at hi
            split at hi
            · rename_i hn
              exact r5 i hn
            · rename_i hn
              rw [r4 i hn]
              exact h.moved i hi) (.unregularized (.unwrapped (detailLazy (.regularized f) xs))) ⟨_, rfl⟩
          obtain ⟨i1, i2⟩ := ih _ rest _ _ hrel (by simpa using hu')
          simp only [mvRun, mvStep, r1, hm, run, step, r2, Option.bind_some, withMoves, i1, i2]
          exact ⟨trivial, trivial⟩
        · cases hu
      · cases hu
    · simp only [unmoved] at hu
      split at hu
      · rename_i k hk
        obtain ⟨rest, hu', rfl⟩ := Option.map_eq_some_iff.1 hu
        obtain ⟨o, h1, h2⟩ := h.holds i k (holder_eq.1 hk)
        have hrel := h.snoc (hs' := hs) t.vars rfl rfl (fun _ _ hi => ⟨hi, rfl⟩) h.moved o (h.facade o (List.mem_of_getElem? h2))
        obtain ⟨i1, i2⟩ := ih _ rest _ _ hrel (by simpa using hu')
        simp only [mvRun, mvStep, h1, run, step, h2, withMoves, i1, i2]
        exact ⟨trivial, trivial⟩
      · cases hu
    · simp only [unmoved] at hu
      split at hu
      · rename_i k hk
        have hk' := holder_eq.1 hk
        obtain ⟨o, h1, h2⟩ := h.holds i k hk'
        have hil := (List.getElem?_eq_some_iff.1 h1).1
        have hlen := h.len
        have hrel : MvRel (hs.set i .movedFrom ++ [.holds k]) ⟨t.vars.set i (some (o.movedFrom μ)) ++ [some o], t.env⟩ s := by
          refine ⟨h.env, by simp [h.len], ?_, ?_, ?_, h.facade⟩
          · intro j l hj
            rw [snoc_get] at hj
            simp only [snoc_get, List.length_set] at hj ⊢
            split at hj
            · cases hj
              rw [if_pos (by omega)]
              exact ⟨o, rfl, h2⟩
            · rw [if_neg (by omega)]
              by_cases hij : i = j
              · subst hij
                rw [List.getElem?_set_self (by omega)] at hj
                cases hj
              · rw [List.getElem?_set_ne hij] at hj ⊢
                exact h.holds j l hj
          · intro j hj
            rw [snoc_get] at hj
            simp only [snoc_get, List.length_set] at hj ⊢
            split at hj
            · cases hj
            · rw [if_neg (by omega)]
              by_cases hij : i = j
              · subst hij
                exact ⟨_, List.getElem?_set_self hil⟩
              · rw [List.getElem?_set_ne hij] at hj ⊢
                exact h.moved j hj
          · have key : ∀ j l : Nat, (hs.set i .movedFrom)[j]? = some (.holds l) → j ≠ i ∧ hs[j]? = some (.holds l) := by
              intro j l hj
              by_cases hij : i = j
              · subst hij
                rw [List.getElem?_set_self (by omega)] at hj
                cases hj
              · rw [List.getElem?_set_ne hij] at hj
                exact ⟨Ne.symm hij, hj⟩
            intro a b l ha hb
            rw [snoc_get] at ha hb
            split at ha <;> split at hb
            · omega
            · cases ha
              obtain ⟨q1, q2⟩ := key b k hb
              exact absurd (h.inj _ _ _ q2 hk') q1
            · cases hb
              obtain ⟨q1, q2⟩ := key a k ha
              exact absurd (h.inj _ _ _ q2 hk') q1
            · exact h.inj a b l (key a l ha).2 (key b l hb).2
        obtain ⟨i1, i2⟩ := ih _ ops' _ _ hrel hu
        simp only [mvRun, mvStep, h1, withMoves, i1, i2]
        exact ⟨trivial, trivial⟩
      · cases hu
    · simp only [unmoved] at hu
      have hlen := h.len
      have hex : ∀ x, hs[i]? = some x → x ≠ .gone → ∃ o, t.vars[i]? = some (some o) := by
        intro x hx hg
        cases x with
        | holds k => obtain ⟨o, h1, -⟩ := h.holds i k hx; exact ⟨o, h1⟩
        | movedFrom => exact h.moved i hx
        | gone => exact absurd rfl hg
      split at hu
      · cases hu
      · rename_i x hx hg
        obtain ⟨o, h1⟩ := hex x hg (by rintro rfl; exact hx rfl)
        have hil := (List.getElem?_eq_some_iff.1 h1).1
        have key : ∀ (j : Nat) l, (hs.set i .gone)[j]? = some l → l ≠ .gone → i ≠ j ∧ hs[j]? = some l := by
          intro j l hj hl
          by_cases hij : i = j
          · subst hij
            rw [List.getElem?_set_self (by omega)] at hj
            cases hj
            exact absurd rfl hl
          · rw [List.getElem?_set_ne hij] at hj
            exact ⟨hij, hj⟩
        have hrel : MvRel (hs.set i .gone) ⟨t.vars.set i none, t.env⟩ s := by
          refine ⟨h.env, by simp [h.len], ?_, ?_, ?_, h.facade⟩
          · intro j l hj
            obtain ⟨q1, q2⟩ := key j _ hj (by simp)
            simp only [List.getElem?_set_ne q1]
            exact h.holds j l q2
          · intro j hj
            obtain ⟨q1, q2⟩ := key j _ hj (by simp)
            simp only [List.getElem?_set_ne q1]
            exact h.moved j q2
          · intro a b l ha hb
            exact h.inj a b l (key a _ ha (by simp)).2 (key b _ hb (by simp)).2
        obtain ⟨i1, i2⟩ := ih _ ops' _ _ hrel hu
        simp only [mvRun, mvStep, h1, withMoves, i1, i2]
        exact ⟨trivial, trivial⟩
      · cases hu
    · simp only [unmoved] at hu
      split at hu
      · rename_i k hk
        obtain ⟨rest, hu', rfl⟩ := Option.map_eq_some_iff.1 hu
        obtain ⟨o, h1, h2⟩ := h.holds i k (holder_eq.1 hk)
        obtain ⟨x, rfl⟩ := h.facade o (List.mem_of_getElem? h2)
        have hrel := h.set i k (holder_eq.1 hk) (call0 g (.unregularized x) s.env).2.1 (call0_facade_kept g x s.env) (call0 g (.unregularized x) s.env).2.2
        obtain ⟨i1, i2⟩ := ih _ rest _ _ hrel (by simpa using hu')
        simp only [mvRun, mvStep, h1, run, step, h2, withMoves, h.env, i1, i2]
        exact ⟨trivial, trivial⟩
      · cases hu
    · simp only [unmoved] at hu
      split at hu
      · rename_i k hk
        obtain ⟨rest, hu', rfl⟩ := Option.map_eq_some_iff.1 hu
        obtain ⟨o, h1, h2⟩ := h.holds i k (holder_eq.1 hk)
        obtain ⟨x, rfl⟩ := h.facade o (List.mem_of_getElem? h2)
        have hrel := h.set i k (holder_eq.1 hk) (evalN g (.unregularized x) s.env).2.1 (evalN_facade_kept g x s.env) (evalN g (.unregularized x) s.env).2.2
        obtain ⟨i1, i2⟩ := ih _ rest _ _ hrel (by simpa using hu')
        simp only [mvRun, mvStep, h1, run, step, h2, withMoves, h.env, i1, i2]
        exact ⟨trivial, trivial⟩
      · cases hu
    · simp only [unmoved] at hu
      obtain ⟨rest, hu', rfl⟩ := Option.map_eq_some_iff.1 hu
      have hrel : MvRel hs ⟨t.vars, { t.env with w := p t.env.w }⟩ ⟨s.vars, { s.env with w := p s.env.w }⟩ :=
        ⟨by simp only [h.env], h.len, h.holds, h.moved, h.inj, h.facade⟩
      obtain ⟨i1, i2⟩ := ih _ rest _ _ hrel hu'
      simp only [mvRun, mvStep, run, step, withMoves, i1, i2]
      exact ⟨trivial, trivial⟩

omit [CxxData D] in
theorem mv_init (w : W) : MvRel [] (MvState.init w : MvState D W E S) (State.init w) :=
  ⟨rfl, rfl, by simp, by simp, by simp, by simp [State.init]⟩

end Pigro
