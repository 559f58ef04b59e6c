import Verif.Proofs.Moving
/-!
# Proofs about moves at memory level
-/
namespace Pigro.LM
open Cxx
variable {D W E S : Type}

/-- The program with moves at memory level and the one without. -/
structure MvSim (hs : List Home) (t : MState D W E S) (s : State D W E S) : Prop where
  env : t.mem.world = s.env
  len : hs.length = t.vars.length
  holds : ∀ i k : Nat, hs[i]? = some (.holds k) → ∃ a o, t.vars[i]? = some a ∧ s.vars[k]? = some o ∧ VarRel t.mem a o
  moved : ∀ i : Nat, hs[i]? = some .movedFrom → ∃ a, t.vars[i]? = some a ∧ t.mem.alive a = true
  lt : ∀ a ∈ t.vars, a < t.mem.next
  apart : ∀ i j a : Nat, t.vars[i]? = some a → t.vars[j]? = some a → i = j
  facade : ∀ o ∈ s.vars, ∃ x, o = .unregularized x

theorem VarRel.keeps {X : Nat → Prop} {m m' : LMem D W E S} {a : Nat} {o : Obj D W E S} (h : VarRel m a o) (hk : Keeps X m m') (hX : ¬ X a) : VarRel m' a o := by
  have h1 := h.1
  have h2 := hk.next
  exact ⟨by omega, by rw [hk.frame a h1 hX]; exact h.2.1, by rw [hk.alive a h1]; exact h.2.2.1, h.2.2.2⟩

theorem addr?_some {t : MState D W E S} {i a : Nat} (h : t.vars[i]? = some a) (ha : t.mem.alive a = true) : t.addr? i = some a := by
  simp [MState.addr?, h, ha]

theorem MvSim.addr {hs : List Home} {t : MState D W E S} {s : State D W E S} (h : MvSim hs t s) {i k : Nat} (hi : hs[i]? = some (.holds k)) :
    ∃ a o, t.vars[i]? = some a ∧ t.addr? i = some a ∧ s.vars[k]? = some o ∧ VarRel t.mem a o := by
  obtain ⟨a, o, h1, h2, h3⟩ := h.holds i k hi
  exact ⟨a, o, h1, addr?_some h1 h3.2.2.1, h2, h3⟩

/-- What the arguments of `pigro::lazy` are, when some are moved from. `N`: where the temporaries begin. -/
structure MvPlaced (Θ : Empties D W E S) (N : Nat) (t : MState D W E S) (deps : List (MvArg D W E S)) (es : List (Expr LB)) (ds : List (DepArg D W E S))
    (m m' : LMem D W E S) : Prop where
  den : Rel2 (Den Θ m') es (ds.map argVal)
  old : ∀ e ∈ es, e.addr < N → ∃ i ∈ deps.flatMap MvArg.names, t.vars[i]? = some e.addr ∧ (e.cat = .xv → i ∈ deps.flatMap MvArg.moves)
  new : ∀ e ∈ es, N ≤ e.addr → m.next ≤ e.addr
  apart : Apart es
  typed : ArgsTyped ds
  world : m'.world = m.world
  keeps : Keeps (fun _ => False) m m'

theorem mvPlace_spec (Θ : Empties D W E S) (moved : MV D W E S → MV D W E S) {hs : List Home} {t : MState D W E S} {s : State D W E S} (h : MvSim hs t s) :
    ∀ (deps : List (MvArg D W E S)) (as : List (ArgRef D W E S)) (m : LMem D W E S), plainArgs hs deps = some as → MvApart deps →
    Keeps (fun _ => False) t.mem m →
    ∃ ds es m', resolveAll s.vars as = some ds ∧ mvPlace (lang Θ moved) t deps m = .ok (es, m') ∧ MvPlaced Θ t.mem.next t deps es ds m m'
  | [], as, m, hp, _, _ => by
    simp only [plainArgs, Option.some.injEq] at hp
    subst hp
    exact ⟨[], [], m, rfl, rfl, trivial, by simp, by simp, by simp [Apart], by simp [ArgsTyped], rfl, Keeps.refl _ _⟩
  | a :: deps, as, m, hp, ha, hk => by
    rw [MvApart, List.pairwise_cons] at ha
    rcases h1 : a.plain hs with _ | b
    · simp [plainArgs, h1] at hp
    rcases h2 : plainArgs hs deps with _ | bs
    · simp [plainArgs, h1, h2] at hp
    simp only [plainArgs, h1, h2, Option.some.injEq] at hp
    subst hp
    -- one argument
    have one : ∃ d e m1, b.resolve s.vars = some d ∧ mvPlace (lang Θ moved) t (a :: deps) m = (match mvPlace (lang Θ moved) t deps m1 with
          | .error i => .error i
          | .ok (es, m2) => .ok (e :: es, m2)) ∧ Den Θ m1 e (argVal d) ∧
          (e.addr < t.mem.next → ∃ i ∈ a.names, t.vars[i]? = some e.addr ∧ (e.cat = .xv → i ∈ a.moves)) ∧ (t.mem.next ≤ e.addr → m.next ≤ e.addr) ∧
          (∀ o, d = .lazyObj o → Typed o) ∧ m1.world = m.world ∧ Keeps (fun _ => False) m m1 := by
      have hn := hk.next
      rcases a with (v | u | i) | i
      · simp only [MvArg.plain, Option.some.injEq] at h1
        subst h1
        exact ⟨.value v, ⟨Θ.base (.val v), false, false, .xv, m.next⟩, m.alloc (.val v), rfl, rfl, ⟨by rw [alloc_next]; simp only; omega, rfl, alloc_get _ _⟩,
          by simp only; omega, by simp, by simp, rfl, Keeps.alloc (Keeps.refl _ _) _⟩
      · simp only [MvArg.plain] at h1
        split at h1
        · cases h1
        simp only [Option.some.injEq] at h1
        subst h1
        exact ⟨.function u, ⟨Θ.base (.user u), false, false, .xv, m.next⟩, m.alloc (.user u), rfl, rfl, ⟨by rw [alloc_next]; simp only; omega, rfl, alloc_get _ _⟩,
          by simp only; omega, by simp, by simp, rfl, Keeps.alloc (Keeps.refl _ _) _⟩
      all_goals
        rcases hh : holder hs i with _ | k
        · simp [MvArg.plain, hh] at h1
        simp only [MvArg.plain, hh, Option.map_some, Option.some.injEq] at h1
        subst h1
        obtain ⟨x, o, g1, g2, g3, g4⟩ := h.addr (holder_eq.1 hh)
        have g5 := g4.keeps hk (by simp)
        have g6 := g4.1
      · refine ⟨.lazyObj o, ⟨Θ.base (m.get x), false, false, .lv, x⟩, m, by simp [ArgRef.resolve, g3], ?_, ⟨g5.1, by rw [g5.2.1]; rfl, g5.2.1⟩,
          fun _ => ⟨i, by simp [MvArg.names], g1, by simp⟩, by simp only; omega, by rintro o' h; cases h; exact g5.2.2.2, rfl, Keeps.refl _ _⟩
        simp only [mvPlace, g2]
        rfl
      · refine ⟨.lazyObj o, ⟨Θ.base (m.get x), false, false, .xv, x⟩, m, by simp [ArgRef.resolve, g3], ?_, ⟨g5.1, by rw [g5.2.1]; rfl, g5.2.1⟩,
          fun _ => ⟨i, by simp [MvArg.names], g1, by simp [MvArg.moves]⟩, by simp only; omega, by rintro o' h; cases h; exact g5.2.2.2, rfl, Keeps.refl _ _⟩
        simp only [mvPlace, g2]
        rfl
    obtain ⟨d, e, m1, q1, q2, q3, q4, q5, q6, q7, q8⟩ := one
    obtain ⟨ds, es, m2, r1, r2, r3⟩ := mvPlace_spec Θ moved h deps bs m1 h2 ha.2 (hk.trans q8 (by simp))
    have n1 := q8.next
    refine ⟨d :: ds, e :: es, m2, by simp [resolveAll, q1, r1], by rw [q2, r2], ⟨q3.keeps r3.keeps (by simp), r3.den⟩, ?_, ?_, ?_, ?_, by rw [r3.world, q7],
      q8.trans r3.keeps (by simp)⟩
    · intro x hx hlt
      rw [List.flatMap_cons, List.flatMap_cons]
      rcases List.mem_cons.1 hx with rfl | hx
      · obtain ⟨i, i1, i2, i3⟩ := q4 hlt
        exact ⟨i, List.mem_append.2 (.inl i1), i2, fun hc => List.mem_append.2 (.inl (i3 hc))⟩
      · obtain ⟨i, i1, i2, i3⟩ := r3.old x hx hlt
        exact ⟨i, List.mem_append.2 (.inr i1), i2, fun hc => List.mem_append.2 (.inr (i3 hc))⟩
    · intro x hx hge
      rcases List.mem_cons.1 hx with rfl | hx
      · exact q5 hge
      · have := r3.new x hx hge
        omega
    · refine List.pairwise_cons.2 ⟨?_, r3.apart⟩
      intro x hx hc heq
      have hlt := q3.1
      by_cases hN : e.addr < t.mem.next
      · obtain ⟨i, i1, i2, i3⟩ := q4 hN
        obtain ⟨j, j1, j2, j3⟩ := r3.old x hx (by omega)
        rw [heq] at i2
        obtain rfl := h.apart i j _ i2 j2
        rcases hc with hc | hc
        · obtain ⟨c, hc1, hc2⟩ := List.mem_flatMap.1 j1
          exact (ha.1 c hc1).1 i (i3 hc) hc2
        · obtain ⟨c, hc1, hc2⟩ := List.mem_flatMap.1 (j3 hc)
          exact (ha.1 c hc1).2 i hc2 i1
      · have := r3.new x hx (by omega)
        omega
    · intro o ho
      rcases List.mem_cons.1 ho with h | h
      · exact q6 o h.symm
      · exact r3.typed o h

variable [CxxData D]

omit [CxxData D] in
/-- A new variable in both. `X`: objects that were moved from meanwhile. -/
theorem MvSim.snoc {hs hs' : List Home} {t : MState D W E S} {s : State D W E S} (h : MvSim hs t s) (X : Nat → Prop) (m : LMem D W E S) (a : Nat) (k : Nat)
    (os : List (Obj D W E S)) (hl : hs'.length = hs.length) (hk : Keeps X t.mem m) (hw : m.world = s.env)
    (hh : ∀ i l : Nat, hs'[i]? = some (.holds l) → hs[i]? = some (.holds l) ∧ ∀ b, t.vars[i]? = some b → ¬ X b)
    (hm : ∀ i : Nat, hs'[i]? = some .movedFrom → hs[i]? = some .movedFrom ∨ ∃ l, hs[i]? = some (.holds l))
    (hos : ∀ (l : Nat) o, s.vars[l]? = some o → os[l]? = some o) (hf : ∀ o ∈ os, ∃ x, o = .unregularized x)
    (o : Obj D W E S) (ha : t.mem.next ≤ a) (hv : VarRel m a o) (ho : os[k]? = some o) : MvSim (hs' ++ [.holds k]) ⟨t.vars ++ [a], m⟩ ⟨os, s.env⟩ := by
  have hlen := h.len
  have hn := hk.next
  refine ⟨hw, by simp [hl, hlen], ?_, ?_, ?_, ?_, hf⟩
  · intro i l hi
    rw [snoc_get] at hi
    simp only [snoc_get]
    split at hi
    · cases hi
      rw [if_pos (by omega)]
      exact ⟨a, o, rfl, ho, hv⟩
    · rw [if_neg (by omega)]
      obtain ⟨h1, h2⟩ := hh i l hi
      obtain ⟨b, x, h3, h4, h5⟩ := h.holds i l h1
      exact ⟨b, x, h3, hos l x h4, h5.keeps hk (h2 b h3)⟩
  · intro i hi
    rw [snoc_get] at hi
    simp only [snoc_get]
    split at hi
    · cases hi
    · rw [if_neg (by omega)]
      have : ∃ b, t.vars[i]? = some b ∧ t.mem.alive b = true := by
        rcases hm i hi with h1 | ⟨l, h1⟩
        · exact h.moved i h1
        · obtain ⟨b, x, h3, h4, h5⟩ := h.holds i l h1
          exact ⟨b, h3, h5.2.2.1⟩
      obtain ⟨b, h1, h2⟩ := this
      exact ⟨b, h1, by rw [hk.alive b (h.lt b (List.mem_of_getElem? h1))]; exact h2⟩
  · intro b hb
    rcases List.mem_append.1 hb with hb | hb
    · have := h.lt b hb
      simp only
      omega
    · rw [List.mem_singleton.1 hb]
      exact hv.1
  · intro i j b hi hj
    simp only [snoc_get] at hi hj
    split at hi <;> split at hj
    · omega
    · cases hi
      have := h.lt a (List.mem_of_getElem? hj)
      omega
    · cases hj
      have := h.lt a (List.mem_of_getElem? hi)
      omega
    · exact h.apart i j b hi hj

omit [CxxData D] in
/-- A variable initialised from another one. -/
theorem init_var (Θ : Empties D W E S) (moved : MV D W E S → MV D W E S) (cat : Cat) (m : LMem D W E S) (a : Nat) (o : Obj D W E S) (hv : VarRel m a o) :
    let r := decayCopy (lang Θ moved).toLang ⟨(lang Θ moved).base (m.get a), false, false, cat, a⟩ m
    r.1.addr = m.next ∧ VarRel r.2 m.next o ∧ r.2.world = m.world ∧ Keeps (fun b => cat = .xv ∧ b = a) m r.2 := by
  obtain ⟨g, n, v⟩ := initFrom_grows (lang Θ moved).toLang ⟨(lang Θ moved).base (m.get a), false, false, cat, a⟩ m hv.1
  refine ⟨rfl, ⟨by simp only [decayCopy]; omega, by simp only [decayCopy]; rw [v]; exact hv.2.1, g.aliveNew _ (Nat.le_refl _) (by omega), hv.2.2.2⟩, g.world,
    (Keeps.ofGrows g).mono fun x _ h => ⟨h.2.1, h.1.symm⟩⟩

/-- Calls and polls depend on the variable only. -/
theorem stepM_one (Λ : LLang D W E S) (byRef : Bool) (t : MState D W E S) (i a : Nat) (h : t.vars[i]? = some a) (op : Nat → Op D W E S) (hop : op = .call ∨ op = .poll) :
    (stepM Λ byRef t (op i)).1 = (stepM Λ byRef ⟨[a], t.mem⟩ (op 0)).1 ∧ (stepM Λ byRef t (op i)).2 = ⟨t.vars, (stepM Λ byRef ⟨[a], t.mem⟩ (op 0)).2.mem⟩ := by
  rcases hop with rfl | rfl <;> simp only [stepM, h, List.getElem?_cons_zero] <;> split <;> simp

theorem step_one (g : Glue) (s : State D W E S) (k : Nat) (o : Obj D W E S) (h : s.vars[k]? = some o) (op : Nat → Op D W E S) (hop : op = .call ∨ op = .poll) :
    ∃ o', (step g s (op k)).1 = (step g ⟨[o], s.env⟩ (op 0)).1 ∧ (step g ⟨[o], s.env⟩ (op 0)).2.vars = [o'] ∧
      (step g s (op k)).2 = ⟨s.vars.set k o', (step g ⟨[o], s.env⟩ (op 0)).2.env⟩ := by
  rcases hop with rfl | rfl <;> simp only [step, h, List.getElem?_cons_zero] <;> exact ⟨_, trivial, rfl, rfl⟩

/-- A call or poll. -/
theorem MvSim.use (Θ : Empties D W E S) (moved : MV D W E S → MV D W E S) (byRef : Bool) {hs : List Home} {t : MState D W E S} {s : State D W E S}
    (h : MvSim hs t s) (i k : Nat) (hi : hs[i]? = some (.holds k)) (op : Nat → Op D W E S) (hop : op = .call ∨ op = .poll) :
    (stepM (lang Θ moved) byRef t (op i)).1 = seen (step (written byRef) s (op k)).1 ∧
      MvSim hs (stepM (lang Θ moved) byRef t (op i)).2 (step (written byRef) s (op k)).2 := by
  obtain ⟨a, o, h1, h2, h3⟩ := h.holds i k hi
  obtain ⟨s1, s2, s3⟩ := stepM_spec Θ moved byRef ⟨[a], t.mem⟩ ⟨[o], s.env⟩ ⟨⟨h3, trivial⟩, h.env⟩ (op 0)
  obtain ⟨q1, q2⟩ := stepM_one (lang Θ moved) byRef t i a h1 op hop
  obtain ⟨o', r1, r2, r3⟩ := step_one (written byRef) s k o h2 op hop
  obtain ⟨-, q4⟩ := stepM_one (lang Θ moved) byRef ⟨[a], t.mem⟩ 0 a rfl op hop
  have hv := s2.vars
  have hvars : (stepM (lang Θ moved) byRef ⟨[a], t.mem⟩ (op 0)).2.vars = [a] := by rw [q4]
  rw [r2, hvars] at hv
  have hv1 : VarRel _ a o' := hv.1
  have hoo : o' = o := by
    have e1 := hv1.2.1
    rw [s3.frame a h3.1 (by simp), h3.2.1] at e1
    cases e1
    rfl
  subst hoo
  rw [q1, s1, r1, q2, r3, set_get_self _ _ _ h2]
  refine ⟨rfl, s2.env, h.len, ?_, ?_, ?_, h.apart, h.facade⟩
  · intro j l hj
    obtain ⟨b, x, g1, g2, g3⟩ := h.holds j l hj
    exact ⟨b, x, g1, g2, g3.keeps s3 (by simp)⟩
  · intro j hj
    obtain ⟨b, g1, g2⟩ := h.moved j hj
    exact ⟨b, g1, by rw [s3.alive b (h.lt b (List.mem_of_getElem? g1))]; exact g2⟩
  · intro b hb
    have := h.lt b hb
    have := s3.next
    simp only at this ⊢
    omega

/-- **Moves change nothing**, at memory level. -/
theorem mv_simM (Θ : Empties D W E S) (moved : MV D W E S → MV D W E S) (byRef : Bool) : ∀ (ops : List (MvOp D W E S)) (hs : List Home) (ops' : List (Op D W E S))
    (t : MState D W E S) (s : State D W E S), MvSim hs t s → unmoved hs s.vars.length ops = some ops' →
    (mvRunM (lang Θ moved) byRef t ops).1 = withMoves .unit ops ((run (written byRef) s ops').1.map seen) ∧
      (mvRunM (lang Θ moved) byRef t ops).2.mem.world = (run (written byRef) s ops').2.env := by
  intro ops
  induction ops with
  | nil =>
    intro hs ops' t s h hu
    simp only [unmoved, Option.some.injEq] at hu
    subst hu
    exact ⟨rfl, h.env⟩
  | cons op ops ih =>
    intro hs ops' t s h hu
    have hlen := h.len
    rcases op with ⟨f, deps⟩ | i | i | i | i | i | p
    · simp only [unmoved] at hu
      split at hu
      · rename_i as hp
        split at hu
        · rename_i hap
          obtain ⟨rest, hu', rfl⟩ := Option.map_eq_some_iff.1 hu
          have ka : Keeps (fun _ => False) t.mem (t.mem.alloc (.user f)) := Keeps.alloc (Keeps.refl _ _) _
          have na : (t.mem.alloc (.user f)).next = t.mem.next + 1 := rfl
          obtain ⟨ds, es, m1, r1, r2, pl⟩ := mvPlace_spec Θ moved h deps as (t.mem.alloc (.user f)) hp (movesApart_spec deps hap) ka
          obtain ⟨xs, hx⟩ := plain_compiles hs f s.vars h.facade deps as ds hp r1
          have hm := pigroLazy_some f ds xs hx
          have hf : Den Θ m1 ⟨(lang Θ moved).base (.user f), false, false, .xv, t.mem.next⟩ (.user f : MV D W E S) :=
            Den.keeps (m := t.mem.alloc (.user f)) ⟨by rw [na]; simp only; omega, rfl, alloc_get _ _⟩ pl.keeps (by simp)
          have hl := pigroLazyM_spec Θ moved ⟨(lang Θ moved).base (.user f), false, false, .xv, t.mem.next⟩ es f ds m1 hf pl.den (by
            refine List.pairwise_cons.2 ⟨?_, pl.apart⟩
            intro x hx _ heq
            simp only at heq
            have := pl.new x hx (by omega)
            omega)
          simp only [hm] at hl
          obtain ⟨a, m2, h2, mk⟩ := hl
          have k1 : Keeps (fun _ => False) t.mem m1 := ka.trans pl.keeps (by simp)
          have k2 : Keeps (fun b => ∃ i ∈ deps.flatMap MvArg.moves, t.vars[i]? = some b) t.mem m2 := (k1.mono (by simp)).trans mk.keeps (by
            rintro b hb ⟨e, he, h⟩
            rcases List.mem_cons.1 he with rfl | he
            · have := h.1
              simp only at this
              omega
            · obtain ⟨i, -, i2, i3⟩ := pl.old e he (by have := h.1; omega)
              exact ⟨i, i3 h.2.1, by rw [i2, h.1]⟩)
          have n1 := k1.next
          have hnew := mk.new
          have hvar : VarRel (m2.killRange t.mem.next m1.next) a (.unregularized (.unwrapped (detailLazy (.regularized f) xs))) := by
            refine ⟨mk.lt, mk.get, ?_, typed_pigroLazy f ds _ pl.typed hm⟩
            simp only [Mem.killRange, mk.alive]
            rw [decide_eq_false (p := a < _) (by omega)]
            simp
          have hrel := h.snoc (hs' := (deps.flatMap MvArg.moves).foldl (fun hs i => hs.set i .movedFrom) hs) _ (m2.killRange t.mem.next m1.next) a s.vars.length
            (s.vars ++ [.unregularized (.unwrapped (detailLazy (.regularized f) xs))]) (homes_length _ _) (k2.killRange _ _ (Nat.le_refl _)) (by
              show m2.world = _
              rw [mk.world, pl.world]
              exact h.env) (by
              intro i l hi
              rw [homes_get] at hi
              split at hi
              · split at hi <;> cases hi
              · rename_i hn
                refine ⟨hi, ?_⟩
                rintro b hb ⟨j, hj, hjb⟩
                exact hn (h.apart i j b hb hjb ▸ hj)) (by
              intro i hi
              rw [homes_get] at hi
              split at hi
              · rename_i hn
                obtain ⟨c, hc1, hc2⟩ := List.mem_flatMap.1 hn
                have : ∀ (deps : List (MvArg D W E S)) as, plainArgs hs deps = some as → c ∈ deps → ∃ k, holder hs i = some k := by
                  intro deps
                  induction deps with
                  | nil => intro _ _ hc; simp at hc
                  | cons d deps ihd =>
                    intro as hp hc
                    rcases h1 : d.plain hs with _ | b
                    · simp [plainArgs, h1] at hp
                    rcases h2 : plainArgs hs deps with _ | bs
                    · simp [plainArgs, h1, h2] at hp
                    rcases List.mem_cons.1 hc with rfl | hc
                    · rcases c with (v | u | j) | j <;> simp [MvArg.moves] at hc2
                      subst hc2
                      simp only [MvArg.plain] at h1
                      rcases hh : holder hs i with _ | k
                      · simp [hh] at h1
                      · exact ⟨k, rfl⟩
                    · exact ihd bs h2 hc
                obtain ⟨k, hk⟩ := this deps as hp hc1
                exact .inr ⟨k, holder_eq.1 hk⟩
              · exact .inl hi) (by
              intro l o ho
              rw [List.getElem?_append_left (List.getElem?_eq_some_iff.1 ho).1]
              exact ho) (by
              intro o ho
              rcases List.mem_append.1 ho with ho | ho
              · exact h.facade o ho
              · rw [List.mem_singleton.1 ho]; exact ⟨_, rfl⟩) _ (by omega) hvar (by simp)
          obtain ⟨i1, i2⟩ := ih _ rest _ _ hrel (by simpa using hu')
          simp only [mvRunM, mvStepM, r2, h2, hm, run, step, r1, Option.bind_some, List.map_cons, withMoves, i1, i2]
          exact ⟨rfl, trivial⟩
        · cases hu
      · cases hu
    · simp only [unmoved] at hu
      split at hu
      · rename_i k hk
        obtain ⟨rest, hu', rfl⟩ := Option.map_eq_some_iff.1 hu
        obtain ⟨a, o, h1, h1', h2, h3⟩ := h.addr (holder_eq.1 hk)
        obtain ⟨j1, j2, j3, j4⟩ := init_var Θ moved .lv t.mem a o h3
        have hrel := h.snoc (hs' := hs) (fun _ => False) _ t.mem.next s.vars.length (s.vars ++ [o]) rfl (j4.mono (by simp)) (by rw [j3]; exact h.env)
          (fun i l hi => ⟨hi, by simp⟩) (fun i hi => .inl hi) (by
            intro l o ho
            rw [List.getElem?_append_left (List.getElem?_eq_some_iff.1 ho).1]
            exact ho) (by
            intro o' ho
            rcases List.mem_append.1 ho with ho | ho
            · exact h.facade o' ho
            · rw [List.mem_singleton.1 ho]; exact h.facade o (List.mem_of_getElem? h2)) o (Nat.le_refl _) j2 (by simp)
        obtain ⟨i1, i2⟩ := ih _ rest _ _ hrel (by simpa using hu')
        simp only [mvRunM, mvStepM, h1', stepM, h1, run, step, h2, withMoves, List.map_cons, j1, i1, i2]
        exact ⟨rfl, trivial⟩
      · cases hu
    · simp only [unmoved] at hu
      split at hu
      · rename_i k hk
        have hk' := holder_eq.1 hk
        obtain ⟨a, o, h1, h1', h2, h3⟩ := h.addr hk'
        obtain ⟨j1, j2, j3, j4⟩ := init_var Θ moved .xv t.mem a o h3
        have hil := (List.getElem?_eq_some_iff.1 h1).1
        have hrel := h.snoc (hs' := hs.set i .movedFrom) (fun b => b = a) _ t.mem.next k s.vars (by simp) (j4.mono (by simp)) (by rw [j3]; exact h.env)
          (by
            intro j l hj
            by_cases hij : i = j
            · subst hij
              rw [List.getElem?_set_self (by omega)] at hj
              cases hj
            · rw [List.getElem?_set_ne hij] at hj
              refine ⟨hj, ?_⟩
              rintro b hb rfl
              exact hij (h.apart i j b h1 hb)) (by
            intro j hj
            by_cases hij : i = j
            · subst hij
              exact .inr ⟨k, hk'⟩
            · rw [List.getElem?_set_ne hij] at hj
              exact .inl hj) (fun _ _ ho => ho) h.facade o (Nat.le_refl _) j2 h2
        obtain ⟨i1, i2⟩ := ih _ ops' _ ⟨s.vars, s.env⟩ hrel hu
        simp only [mvRunM, mvStepM, h1', withMoves, j1, i1, i2]
        exact ⟨trivial, trivial⟩
      · cases hu
    · simp only [unmoved] at hu
      split at hu
      · cases hu
      · rename_i x hx hg
        have hex : ∃ a, t.vars[i]? = some a ∧ t.mem.alive a = true := by
          cases x with
          | holds k => obtain ⟨a, o, q1, q2, q3⟩ := h.holds i k hg; exact ⟨a, q1, q3.2.2.1⟩
          | movedFrom => exact h.moved i hg
          | gone => exact absurd rfl hx
        obtain ⟨a, h1, h2⟩ := hex
        have hil := (List.getElem?_eq_some_iff.1 h1).1
        have key : ∀ (j : Nat) l, (hs.set i .gone)[j]? = some l → l ≠ .gone → i ≠ j ∧ hs[j]? = some l := by
          intro j l hj hl
          by_cases hij : i = j
          · subst hij
            rw [List.getElem?_set_self (by omega)] at hj
            cases hj
            exact absurd rfl hl
          · rw [List.getElem?_set_ne hij] at hj
            exact ⟨hij, hj⟩
        have alive : ∀ j b, i ≠ j → t.vars[j]? = some b → t.mem.alive b = true → (t.mem.kill a).alive b = true := by
          intro j b hij hb hab
          have : b ≠ a := by rintro rfl; exact hij (h.apart i j b h1 hb)
          simp [Mem.kill, hab, this]
        have hrel : MvSim (hs.set i .gone) ⟨t.vars, t.mem.kill a⟩ s := by
          refine ⟨h.env, by simp [h.len], ?_, ?_, h.lt, h.apart, h.facade⟩
          · intro j l hj
            obtain ⟨q1, q2⟩ := key j _ hj (by simp)
            obtain ⟨b, o, g1, g2, g3⟩ := h.holds j l q2
            exact ⟨b, o, g1, g2, g3.1, g3.2.1, alive j b q1 g1 g3.2.2.1, g3.2.2.2⟩
          · intro j hj
            obtain ⟨q1, q2⟩ := key j _ hj (by simp)
            obtain ⟨b, g1, g2⟩ := h.moved j q2
            exact ⟨b, g1, alive j b q1 g1 g2⟩
        obtain ⟨i1, i2⟩ := ih _ ops' _ _ hrel hu
        simp only [mvRunM, mvStepM, addr?_some h1 h2, withMoves, i1, i2]
        exact ⟨trivial, trivial⟩
      · cases hu
    · simp only [unmoved] at hu
      split at hu
      · rename_i k hk
        obtain ⟨rest, hu', rfl⟩ := Option.map_eq_some_iff.1 hu
        obtain ⟨a, o, h1, h1', h2, h3⟩ := h.addr (holder_eq.1 hk)
        obtain ⟨g1, g2⟩ := h.use Θ moved byRef i k (holder_eq.1 hk) .call (.inl rfl)
        obtain ⟨i1, i2⟩ := ih _ rest _ _ g2 (by
          have : (step (written byRef) s (.call k)).2.vars.length = s.vars.length := by simp [step, h2]
          rw [this]; exact hu')
        simp only [mvRunM, mvStepM, h1', run, withMoves, List.map_cons, g1, i1, i2]
        exact ⟨trivial, trivial⟩
      · cases hu
    · simp only [unmoved] at hu
      split at hu
      · rename_i k hk
        obtain ⟨rest, hu', rfl⟩ := Option.map_eq_some_iff.1 hu
        obtain ⟨a, o, h1, h1', h2, h3⟩ := h.addr (holder_eq.1 hk)
        obtain ⟨g1, g2⟩ := h.use Θ moved byRef i k (holder_eq.1 hk) .poll (.inr rfl)
        obtain ⟨i1, i2⟩ := ih _ rest _ _ g2 (by
          have : (step (written byRef) s (.poll k)).2.vars.length = s.vars.length := by simp [step, h2]
          rw [this]; exact hu')
        simp only [mvRunM, mvStepM, h1', run, withMoves, List.map_cons, g1, i1, i2]
        exact ⟨trivial, trivial⟩
      · cases hu
    · simp only [unmoved] at hu
      obtain ⟨rest, hu', rfl⟩ := Option.map_eq_some_iff.1 hu
      have hrel : MvSim hs (stepM (lang Θ moved) byRef t (.poke p)).2 (step (written byRef) s (.poke p)).2 :=
        ⟨by simp only [stepM, step, h.env], h.len, h.holds, h.moved, h.lt, h.apart, h.facade⟩
      obtain ⟨i1, i2⟩ := ih _ rest _ _ hrel hu'
      simp only [mvRunM, mvStepM, run, withMoves, List.map_cons, i1, i2]
      exact ⟨rfl, trivial⟩

omit [CxxData D] in
theorem mv_initM (w : W) : MvSim [] (MState.init w : MState D W E S) (State.init w) :=
  ⟨rfl, rfl, by simp, by simp, by simp [MState.init], by simp [MState.init], by simp [State.init]⟩

end Pigro.LM
