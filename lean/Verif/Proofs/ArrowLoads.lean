import Verif.Proofs.ExtraLazy
import Verif.Spec.ConstDep
/-!
# Proofs: how often the arrow of docs/walkthrough/dependencies.md is loaded
-/
namespace Pigro
variable {D W E S : Type} [CxxData D]

/-- A wrapped function adds its own invocation and comparisons, nothing else. -/
theorem coreTail_extra (g : Glue) (u : UFn D W E S) (c : Cache D) (rs : List (LazyRes D)) (env : Env D W S) :
    (∃ extra, (coreTail g (.regularized u) c rs env).2.2.2.log = env.log ++ extra ∧
      ∀ e ∈ extra, (∃ a b d, e = .call .fn u.id a b d) ∨ ∃ a b, e = .cmp a b) ∧
    ∃ s, (coreTail g (.regularized u) c rs env).2.1 = .regularized { u with st := s } := by
  have hcmp : ∀ v, ∀ e ∈ (cmpEvents c v : List (Ev D S)), ∃ a b, e = .cmp a b := by
    intro v e he
    cases c with
    | rv _ => simp [cmpEvents] at he
    | opt o =>
      cases o with
      | none => simp [cmpEvents] at he
      | some x => simp only [cmpEvents, List.mem_singleton] at he; exact ⟨_, _, he⟩
  unfold coreTail
  simp only
  split
  · split
    · exact ⟨⟨[], by simp, by simp⟩, u.st, rfl⟩
    · rename_i values _
      rcases hr : u.run u.st values env.w with ⟨e | v, s, w⟩
      · simp only [Fun.call, UFn.invoke, hr]
        refine ⟨⟨_, rfl, ?_⟩, ?_⟩
        · intro e he
          exact .inl ⟨_, _, _, List.mem_singleton.mp he⟩
        · cases g.regParamByValue <;> exact ⟨_, rfl⟩
      · simp only [Fun.call, UFn.invoke, hr]
        split
        · refine ⟨⟨_, List.append_assoc _ _ _, ?_⟩, ?_⟩
          · intro e he
            rcases List.mem_append.mp he with he | he
            · exact .inl ⟨_, _, _, List.mem_singleton.mp he⟩
            · exact .inr (hcmp _ e he)
          · cases g.regParamByValue <;> exact ⟨_, rfl⟩
        · refine ⟨⟨_, rfl, ?_⟩, ?_⟩
          · intro e he
            exact .inl ⟨_, _, _, List.mem_singleton.mp he⟩
          · cases g.regParamByValue <;> exact ⟨_, rfl⟩
  · split <;> exact ⟨⟨[], by simp, by simp⟩, u.st, rfl⟩

omit [CxxData D] in
theorem loads_append (id : Nat) (a b : List (Ev D S)) : loads id (a ++ b) = loads id a + loads id b := by
  simp [loads]

omit [CxxData D] in
theorem loads_optCmp (id : Nat) (c : Option (Val D)) (v : Val D) : loads id (optCmp c v : List (Ev D S)) = 0 := by
  cases c <;> simp [optCmp, loads]

omit [CxxData D] in
theorem loads_extra (id : Nat) (u : UFn D W E S) (hid : u.id ≠ id) (extra : List (Ev D S))
    (h : ∀ e ∈ extra, (∃ a b d, e = .call .fn u.id a b d) ∨ ∃ a b, e = .cmp a b) : loads id extra = 0 := by
  rw [loads, List.countP_eq_zero]
  intro e he
  rcases h e he with ⟨a, b, d, rfl⟩ | ⟨a, b, rfl⟩ <;> simp [hid]

/-- `lazy(render_mouse_cursor, get_mouse_pos, arrow)`, `arrow` being any dependency. -/
def cursorOf (render : UFn D W E S) (cr : Cache D) (pos : UFn D W E S) (cp : Option (Val D)) (arrow : Obj D W E S) : Obj D W E S :=
  .unregularized (.unwrapped (.core (.regularized render) cr [.core (.wrapDep pos) (.opt cp) [.lazyValue (.data CxxData.zero) true], arrow]))

/-- One frame: the position can be obtained, the arrow is asked for. -/
theorem cursorOf_frame (g : Glue) (hg : g.Retains) (hr : g.resultByRef = false) (render pos : UFn D W E S) (cr : Cache D) (cp : Option (Val D)) (arrow : Obj D W E S)
    (hret : pos.ret = .val) (hk : pos.Kept g.wrapParamByValue) (hpos : ∀ s w, ∃ v, (pos.run s [] w).1 = .ok v) (env : Env D W S) (id : Nat) (hrid : render.id ≠ id)
    (hpid : pos.id ≠ id) (n : Nat) (P : Obj D W E S → Prop)
    (harrow : ∀ env : Env D W S, ∃ r arrow' env', evalN g arrow env = (.ok r, arrow', env') ∧ loads id env'.log = loads id env.log + n ∧ P arrow') :
    ∃ o s1 cr' s2 cp' arrow' env', call0 g (cursorOf render cr pos cp arrow) env =
      (o, cursorOf { render with st := s1 } cr' { pos with st := s2 } cp' arrow', env') ∧ loads id env'.log = loads id env.log + n ∧ P arrow' := by
  obtain ⟨v, hv⟩ := hpos pos.st env.w
  have p2 := (evalN_polled g hg hr pos hret hk cp env).2 v hv
  obtain ⟨r, arrow', env', a1, a2, a3⟩ := harrow ⟨(pos.run pos.st [] env.w).2.2, env.log ++ [.call .dep pos.id [] pos.st (pos.run pos.st [] env.w).2.1] ++ optCmp cp v⟩
  have hd := cursor_deps g _ _ _ _ env _ _ _ p2 _ a1
  obtain ⟨g1, g2, g3, g4⟩ := hg
  simp only [cursorOf]
  simp only [Out.map] at hd
  rw [call0_facade, evalN_core_ok g _ _ _ _ hd]
  obtain ⟨⟨extra, q1, q2⟩, s', q3⟩ := coreTail_extra g render cr [⟨v, optNe cp v, true⟩, r] env'
  simp only [g1, g2, g3, g4, Bool.or_self, keep_false, q3]
  refine ⟨_, _, _, _, _, arrow', _, rfl, ?_, a3⟩
  rw [q1, loads_append, loads_extra id render hrid extra q2, a2, loads_append, loads_append, loads_optCmp]
  simp [loads, hpid]

/-- The frames of a loop. -/
theorem cursorOf_loop (g : Glue) (hg : g.Retains) (hr : g.resultByRef = false) (id : Nat) (n : Nat) (P : Obj D W E S → Prop)
    (harrow : ∀ arrow, P arrow → ∀ env : Env D W S, ∃ r arrow' env', evalN g arrow env = (.ok r, arrow', env') ∧ loads id env'.log = loads id env.log + n ∧ P arrow')
    (x : Nat) (l : List (Option (W → W))) : ∀ (render pos : UFn D W E S) (cr : Cache D) (cp : Option (Val D)) (arrow : Obj D W E S) (s : State D W E S),
      pos.ret = .val → pos.Kept g.wrapParamByValue → (∀ s w, ∃ v, (pos.run s [] w).1 = .ok v) → render.id ≠ id → pos.id ≠ id → P arrow →
      s.vars[x]? = some (cursorOf render cr pos cp arrow) →
      loads id (run g s (l.map (frame x))).2.env.log = loads id s.env.log + n * l.countP Option.isNone := by
  induction l with
  | nil => intro render pos cr cp arrow s _ _ _ _ _ _ _; simp [run]
  | cons f l ih =>
    intro render pos cr cp arrow s h1 h2 h3 h4 h5 h6 hx
    cases f with
    | some f =>
      have := ih render pos cr cp arrow { s with env := { s.env with w := f s.env.w } } h1 h2 h3 h4 h5 h6 hx
      simpa [run, frame, step] using this
    | none =>
      obtain ⟨o, s1, cr', s2, cp', arrow', env', k1, k2, k3⟩ := cursorOf_frame g hg hr render pos cr cp arrow h1 h2 h3 s.env id h4 h5 n P (harrow arrow h6)
      have hstep := step_call g s x _ hx
      rw [k1] at hstep
      have := ih { render with st := s1 } { pos with st := s2 } cr' cp' arrow' ⟨s.vars.set x (cursorOf { render with st := s1 } cr' { pos with st := s2 } cp' arrow'), env'⟩
        h1 h2 h3 h4 h5 k3 (by
          have := (List.getElem?_eq_some_iff.mp hx).1
          simp [this])
      simp only [List.map_cons, frame, run, hstep, this, k2, List.countP_cons, Option.isNone_none, if_true]
      rw [Nat.mul_add, Nat.mul_one]
      omega

/-- A plain function is called every time. -/
theorem arrow_plain (g : Glue) (hg : g.Retains) (hr : g.resultByRef = false) (load : UFn D W E S) (hret : load.ret = .val) (hk : load.Kept g.wrapParamByValue)
    (hload : ∀ s w, ∃ v, (load.run s [] w).1 = .ok v) :
    ∀ arrow : Obj D W E S, (∃ s c, arrow = .core (.wrapDep { load with st := s }) (.opt c) [.lazyValue (.data CxxData.zero) true]) → ∀ env : Env D W S,
      ∃ r arrow' env', evalN g arrow env = (.ok r, arrow', env') ∧ loads load.id env'.log = loads load.id env.log + 1 ∧
        ∃ s c, arrow' = .core (.wrapDep { load with st := s }) (.opt c) [.lazyValue (.data CxxData.zero) true] := by
  rintro arrow ⟨s, c, rfl⟩ env
  obtain ⟨v, hv⟩ := hload s env.w
  have p2 := (evalN_polled g hg hr { load with st := s } hret hk c env).2 v hv
  refine ⟨_, _, _, p2, ?_, _, _, rfl⟩
  rw [loads_append, loads_append, loads_optCmp]
  simp [loads]

/-- A lazy function that has been called is not called again. -/
theorem arrow_kept (g : Glue) (load : UFn D W E S) (v : Val D) (id : Nat) :
    ∀ arrow : Obj D W E S, (∃ s, arrow = constObj [] { load with st := s } (.opt (some v))) → ∀ env : Env D W S,
      ∃ r arrow' env', evalN g arrow env = (.ok r, arrow', env') ∧ loads id env'.log = loads id env.log + 0 ∧
        ∃ s, arrow' = constObj [] { load with st := s } (.opt (some v)) := by
  rintro arrow ⟨s, rfl⟩ env
  have hd : evalDeps (E := E) g ([] : List (Obj D W E S)) env = (.ok [], [], env) := by simp [evalDeps]
  simp only [constObj, List.map_nil]
  rw [evalN_facade, evalN_core_ok g _ _ _ _ hd, coreTail_skip g _ _ _ _ v (by rw [any_eq]; rfl) rfl]
  simp only [keep_self, Out.map]
  exact ⟨_, _, _, rfl, rfl, s, rfl⟩

/-- The first time it is called. -/
theorem arrow_first (g : Glue) (hg : g.Retains) (load : UFn D W E S) (hret : load.ret = .val) (v : Val D)
    (hload : ∀ s w, (load.run s [] w).1 = .ok v) (env : Env D W S) :
      ∃ r arrow' env', evalN g (constObj [] load (.opt none)) env = (.ok r, arrow', env') ∧ loads load.id env'.log = loads load.id env.log + 1 ∧
        ∃ s, arrow' = constObj [] { load with st := s } (.opt (some v)) := by
  have hd : evalDeps (E := E) g ([] : List (Obj D W E S)) env = (.ok [], [], env) := by simp [evalDeps]
  obtain ⟨g1, g2, g3, g4⟩ := hg
  rcases hrun : load.run load.st [] env.w with ⟨r, s', w'⟩
  have h0 := hload load.st env.w
  rw [hrun] at h0
  simp only at h0
  subst h0
  have hcall : Fun.call g (.regularized load) [] env =
      (.ok (load.ret.regularize v), .regularized (keep g.regParamByValue load { load with st := s' }), ⟨w', env.log ++ [.call .fn load.id [] load.st s']⟩) := by
    simp [Fun.call, UFn.invoke, hrun]
  have hreg : load.ret.regularize v = v := by rw [hret]; rfl
  simp only [constObj, List.map_nil]
  rw [evalN_facade, evalN_core_ok g _ _ _ _ hd, coreTail_run g _ _ _ _ env _ [] _ v rfl (by rfl) hcall (by rw [hret]; trivial), hreg]
  simp only [g1, g2, g3, g4, Bool.or_self, keep_false, Out.map, Cache.assign, cmpEvents, List.append_nil]
  refine ⟨_, _, _, rfl, ?_, ?_⟩
  · rw [loads_append]
    simp [loads]
  · cases g.regParamByValue
    · exact ⟨s', rfl⟩
    · exact ⟨load.st, rfl⟩

/-- The loop with a lazy arrow that has not been called. -/
theorem lazy_loop (g : Glue) (hg : g.Retains) (hr : g.resultByRef = false) (load : UFn D W E S) (hl : load.ret = .val) (v : Val D)
    (hload : ∀ s w, (load.run s [] w).1 = .ok v) (x : Nat) (render pos : UFn D W E S) (h1 : pos.ret = .val) (h2 : pos.Kept g.wrapParamByValue)
    (h3 : ∀ s w, ∃ v, (pos.run s [] w).1 = .ok v) (h4 : render.id ≠ load.id) (h5 : pos.id ≠ load.id) (l : List (Option (W → W))) :
    ∀ (cr : Cache D) (cp : Option (Val D)) (s : State D W E S), s.vars[x]? = some (cursorOf render cr pos cp (constObj [] load (.opt none))) →
      loads load.id (run g s (l.map (frame x))).2.env.log = loads load.id s.env.log + min 1 (l.countP Option.isNone) := by
  induction l with
  | nil => intro cr cp s _; simp [run]
  | cons f l ih =>
    intro cr cp s hx
    cases f with
    | some f =>
      have := ih cr cp { s with env := { s.env with w := f s.env.w } } hx
      simpa [run, frame, step] using this
    | none =>
      obtain ⟨o, s1, cr', s2, cp', arrow', env', k1, k2, k3⟩ := cursorOf_frame g hg hr render pos cr cp _ h1 h2 h3 s.env load.id h4 h5 1
        (fun arrow => ∃ s, arrow = constObj [] { load with st := s } (.opt (some v))) (arrow_first g hg load hl v hload)
      have hstep := step_call g s x _ hx
      rw [k1] at hstep
      have := cursorOf_loop g hg hr load.id 0 _ (arrow_kept g load v load.id) x l { render with st := s1 } { pos with st := s2 } cr' cp' arrow'
        ⟨s.vars.set x (cursorOf { render with st := s1 } cr' { pos with st := s2 } cp' arrow'), env'⟩ h1 h2 h3 h4 h5 k3 (by
          have := (List.getElem?_eq_some_iff.mp hx).1
          simp [this])
      simp only [List.map_cons, frame, run, hstep, this, k2, List.countP_cons, Option.isNone_none, if_true]
      omega

end Pigro
