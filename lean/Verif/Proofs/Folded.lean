import Verif.Spec.Folded
import Verif.Proofs.Constants
/-!
# Proof: all constants written into the function (C99)
-/
namespace Pigro.Rfc
variable {D W E S : Type}

/-- Several constants inserted one after another. -/
def insAll {α : Type} (vs : List (Nat × Val D)) (c : Val D → α) (l : List α) : List α := vs.foldr (fun p l => ins p.1 (c p.2) l) l

/-- A constant, as a dependency is evaluated to it. -/
def constRes (v : Val D) : LazyRes D := ⟨v, false, true⟩

/-- A constant, as dependency. -/
def constObj (v : Val D) : Obj D W E S := .lazyValue v false

/-- `h` is `f` with the constants inserted. -/
def InsertsAll (h f : UFn D W E S) (vs : List (Nat × Val D)) (N : Nat) : Prop :=
  h.ret = f.ret ∧ h.st = f.st ∧ ∀ s xs w, xs.length = N → h.run s (Rem.spread xs) w = f.run s (Rem.spread (insAll vs id xs)) w

theorem insAll_map {α β : Type} (f : α → β) (c : Val D → α) (c' : Val D → β) (hc : ∀ v, f (c v) = c' v) (vs : List (Nat × Val D)) (l : List α) :
    (insAll vs c l).map f = insAll vs c' (l.map f) := by
  induction vs with
  | nil => rfl
  | cons p vs ih =>
    simp only [insAll, List.foldr_cons] at ih ⊢
    rw [ins_map, ih, hc]

theorem insAll_all {α : Type} (p : α → Bool) (c : Val D → α) (hc : ∀ v, p (c v) = true) (vs : List (Nat × Val D)) (l : List α) : (insAll vs c l).all p = l.all p := by
  induction vs with
  | nil => rfl
  | cons q vs ih =>
    simp only [insAll, List.foldr_cons] at ih ⊢
    rw [ins_all, ih, hc, Bool.true_and]

theorem insAll_any {α : Type} (p : α → Bool) (c : Val D → α) (hc : ∀ v, p (c v) = false) (vs : List (Nat × Val D)) (l : List α) : (insAll vs c l).any p = l.any p := by
  induction vs with
  | nil => rfl
  | cons q vs ih =>
    simp only [insAll, List.foldr_cons] at ih ⊢
    rw [ins_any, ih, hc, Bool.false_or]

variable [CxxData D]

theorem deps_insAll (g : Glue) (hg : ConstantsLive g) (vs : List (Nat × Val D)) (ds : List (Obj D W E S)) (env : Env D W S) :
    evalDeps g (insAll vs constObj ds) env = ((evalDeps g ds env).1.map (insAll vs constRes), insAll vs constObj (evalDeps g ds env).2.1, (evalDeps g ds env).2.2) := by
  induction vs with
  | nil =>
    simp only [insAll, List.foldr_nil]
    rcases evalDeps g ds env with ⟨o, ds', env'⟩
    cases o <;> rfl
  | cons p vs ih =>
    simp only [insAll, List.foldr_cons] at ih ⊢
    simp only [constObj] at ih ⊢
    rw [deps_ins g hg p.2 p.1, ih]
    rcases evalDeps g ds env with ⟨o, ds', env'⟩
    cases o <;> rfl

variable {g : Glue} {h f : UFn D W E S} {N : Nat} {vs : List (Nat × Val D)} {care : Ev D S → Bool}

theorem folded_tail (hs : InsertsAll h f vs N) (hc : Skips care [h.id, f.id]) (st : S) (c : Cache D) (rs : List (LazyRes D)) (hl : rs.length = N) {x y : Env D W S} (hn : Near care x y) :
    let a := coreTail g (.regularized ⟨h.toFnCode, st⟩) c rs x
    let b := coreTail g (.regularized ⟨f.toFnCode, st⟩) c (insAll vs constRes rs) y
    a.1 = b.1 ∧ (∃ st', a.2.1 = .regularized ⟨h.toFnCode, st'⟩ ∧ b.2.1 = .regularized ⟨f.toFnCode, st'⟩) ∧ a.2.2.1 = b.2.2.1 ∧ Near care a.2.2.2 b.2.2.2 := by
  dsimp only
  have e1 : any LazyRes.isChanged (insAll vs constRes rs) = any LazyRes.isChanged rs := by rw [any_eq, any_eq, insAll_any _ _ fun _ => rfl]
  cases hch : (!c.engaged || any LazyRes.isChanged rs) with
  | false =>
    simp only [coreTail, e1, hch, Bool.false_eq_true, if_false]
    rcases c.deref with _ | w
    · exact ⟨rfl, ⟨st, rfl, rfl⟩, rfl, hn⟩
    · exact ⟨rfl, ⟨st, rfl, rfl⟩, rfl, hn⟩
  | true =>
    have e2 : (insAll vs constRes rs).all (·.live) = rs.all (·.live) := insAll_all _ _ (fun _ => rfl) _ _
    simp only [coreTail, e1, hch, if_true, readValues, e2]
    cases hlv : rs.all (·.live) with
    | false => exact ⟨rfl, ⟨st, rfl, rfl⟩, rfl, hn⟩
    | true =>
      simp only [if_true, transform_eq, Rem.spread_eq, insAll_map LazyRes.value constRes id (fun _ => rfl)]
      have hr := hs.2.2 st (rs.map LazyRes.value) x.w (by simpa using hl)
      have hw : x.w = y.w := hn.1
      rcases hq : f.run st (Rem.spread (insAll vs id (rs.map LazyRes.value))) y.w with ⟨q, st', w'⟩
      rw [hw, hq] at hr
      have hnear : ∀ l : List (Ev D S), Near care ⟨w', x.log ++ [.call .fn h.id (Rem.spread (rs.map LazyRes.value)) st st'] ++ l⟩
          ⟨w', y.log ++ [.call .fn f.id (Rem.spread (insAll vs id (rs.map LazyRes.value))) st st'] ++ l⟩ := by
        intro l
        refine ⟨rfl, ?_⟩
        simp [hc h.id (by simp), hc f.id (by simp), hn.2]
      rcases q with e | r
      · have k1 : (Fun.regularized ⟨h.toFnCode, st⟩ : Fun D W E S).call g (Rem.spread (rs.map LazyRes.value)) x =
            (.thrown e, .regularized ⟨h.toFnCode, keep g.regParamByValue st st'⟩, ⟨w', x.log ++ [.call .fn h.id (Rem.spread (rs.map LazyRes.value)) st st']⟩) := by
          simp only [Fun.call, UFn.invoke, hw, hr]
          cases g.regParamByValue <;> rfl
        have k2 : (Fun.regularized ⟨f.toFnCode, st⟩ : Fun D W E S).call g (Rem.spread (insAll vs id (rs.map LazyRes.value))) y =
            (.thrown e, .regularized ⟨f.toFnCode, keep g.regParamByValue st st'⟩, ⟨w', y.log ++ [.call .fn f.id (Rem.spread (insAll vs id (rs.map LazyRes.value))) st st']⟩) := by
          simp only [Fun.call, UFn.invoke, hq]
          cases g.regParamByValue <;> rfl
        rw [k1, k2]
        have := hnear []
        simp only [List.append_nil] at this
        exact ⟨rfl, ⟨_, rfl, rfl⟩, rfl, this⟩
      · have k1 : (Fun.regularized ⟨h.toFnCode, st⟩ : Fun D W E S).call g (Rem.spread (rs.map LazyRes.value)) x =
            (.ok (f.ret.regularize r), .regularized ⟨h.toFnCode, keep g.regParamByValue st st'⟩, ⟨w', x.log ++ [.call .fn h.id (Rem.spread (rs.map LazyRes.value)) st st']⟩) := by
          simp only [Fun.call, UFn.invoke, hw, hr, ← hs.1]
          cases g.regParamByValue <;> rfl
        have k2 : (Fun.regularized ⟨f.toFnCode, st⟩ : Fun D W E S).call g (Rem.spread (insAll vs id (rs.map LazyRes.value))) y =
            (.ok (f.ret.regularize r), .regularized ⟨f.toFnCode, keep g.regParamByValue st st'⟩, ⟨w', y.log ++ [.call .fn f.id (Rem.spread (insAll vs id (rs.map LazyRes.value))) st st']⟩) := by
          simp only [Fun.call, UFn.invoke, hq]
          cases g.regParamByValue <;> rfl
        rw [k1, k2]
        simp only
        rcases (c.assign (f.ret.regularize r)).deref with _ | z
        · have := hnear []
          simp only [List.append_nil] at this
          exact ⟨rfl, ⟨_, rfl, rfl⟩, rfl, this⟩
        · exact ⟨rfl, ⟨_, rfl, rfl⟩, rfl, hnear _⟩

/-- The object without the constants, and the one with them. -/
def Without (h f : UFn D W E S) (vs : List (Nat × Val D)) (N : Nat) (a b : Obj D W E S) : Prop :=
  ∃ st c ds, a = .core (.regularized ⟨h.toFnCode, st⟩) c ds ∧ b = .core (.regularized ⟨f.toFnCode, st⟩) c (insAll vs constObj ds) ∧ ds.length = N

theorem without_step (hg : ConstantsLive g) (hs : InsertsAll h f vs N) (hc : Skips care [h.id, f.id]) {a b : Obj D W E S} (hb : Without h f vs N a b) {x y : Env D W S} (hn : Near care x y) :
    (evalN g a x).1 = (evalN g b y).1 ∧ Without h f vs N (evalN g a x).2.1 (evalN g b y).2.1 ∧ Near care (evalN g a x).2.2 (evalN g b y).2.2 := by
  obtain ⟨st, c, ds, rfl, rfl, hl⟩ := hb
  obtain ⟨d1, d2, d3⟩ := deps_near hn g ds
  have hd := deps_insAll g hg vs ds y
  have hk := deps_kept g ds x
  have hrs := evalDeps_length g ds x
  rcases e1 : evalDeps g ds x with ⟨o, ds', x'⟩
  rcases e2 : evalDeps g ds y with ⟨o', ds'', y'⟩
  rw [e1] at hk hrs
  rw [e2] at hd
  rw [e1, e2] at d1 d2 d3
  obtain rfl : o = o' := d1
  obtain rfl : ds' = ds'' := d2
  replace d3 : Near care x' y' := d3
  have hins : ∀ (b : Bool), keep b (insAll vs constObj ds) (insAll vs constObj ds') = insAll vs constObj (keep b ds ds') := by
    intro b; cases b <;> rfl
  have hlen : ∀ (b : Bool), (keep b ds ds').length = N := by
    intro b; cases b
    · exact hk.trans hl
    · exact hl
  rcases o with rs | e | _ | _
  · obtain ⟨t1, ⟨st', t2, t3⟩, t4, t5⟩ := folded_tail (g := g) (care := care) hs hc st c rs ((hrs rs rfl).trans hl) d3
    rw [evalN_core_ok g _ c ds x e1, evalN_core_ok g _ c _ y hd]
    simp only [hins, t1, t2, t3, t4]
    refine ⟨trivial, ⟨keep g.coreParamsByValue st st', keep g.bindFrontCopies c (coreTail g (Fun.regularized ⟨f.toFnCode, st⟩) c (insAll vs constRes rs) y').2.2.1, keep g.coreParamsByValue ds ds', ?_, ?_, hlen _⟩, t5⟩
    · cases g.coreParamsByValue <;> rfl
    · cases g.coreParamsByValue <;> rfl
  all_goals
    rw [evalN_core_fail g _ c ds x e1 rfl, evalN_core_fail g _ c _ y hd rfl, hins]
    exact ⟨rfl, ⟨st, c, keep g.coreParamsByValue ds ds', rfl, rfl, hlen _⟩, d3⟩

/-- As clients hold them. -/
def WithoutTwo (h f : UFn D W E S) (vs : List (Nat × Val D)) (N : Nat) (a b : Obj D W E S) : Prop :=
  ∃ x y, a = .unregularized (.unwrapped x) ∧ b = .unregularized (.unwrapped y) ∧ Without h f vs N x y

theorem constants_alike (hg : ConstantsLive g) (hs : InsertsAll h f vs N) (hc : Skips care [h.id, f.id]) {a b : Obj D W E S} (hb : WithoutTwo h f vs N a b) : Alike g care a b := by
  refine alike_of_bisim g care (WithoutTwo h f vs N) ?_ hb
  rintro _ _ x y t ⟨a, b, rfl, rfl, hb⟩ hn
  obtain ⟨h1, h2, h3⟩ := without_step hg hs hc hb hn
  have hrv : a.valueIsRV = b.valueIsRV := by
    obtain ⟨st, c, ds, rfl, rfl, _⟩ := hb
    rfl
  have hk : ∀ q : Bool, Without h f vs N (keep q a (evalN g a x).2.1) (keep q b (evalN g b y).2.1) := by
    intro q; cases q
    · exact h2
    · exact hb
  cases t with
  | call =>
    simp only [test]
    rw [call0_facade, call0_facade, h1, hrv]
    exact ⟨rfl, ⟨_, _, rfl, rfl, hk _⟩, h3⟩
  | poll =>
    simp only [test]
    rw [evalN_facade, evalN_facade, h1]
    exact ⟨rfl, ⟨_, _, rfl, rfl, hk _⟩, h3⟩
  | poke p => exact ⟨rfl, ⟨a, b, rfl, rfl, hb⟩, by simp only [test]; exact ⟨by rw [hn.1], hn.2⟩⟩

/-! ### Programs -/

omit [CxxData D] in
theorem resolve_insAll (vars : List (Obj D W E S)) (vs : List (Nat × Val D)) (deps : List (ArgRef D W E S)) :
    resolveAll vars (insAll vs .value deps) = (resolveAll vars deps).map (insAll vs .value) := by
  induction vs with
  | nil => simp only [insAll, List.foldr_nil]; cases resolveAll vars deps <;> rfl
  | cons p vs ih =>
    simp only [insAll, List.foldr_cons] at ih ⊢
    rw [resolve_ins, ih]
    cases resolveAll vars deps <;> rfl

theorem ensure_insAll (vs : List (Nat × Val D)) (as : List (DepArg D W E S)) : ensureAll (insAll vs .value as) = (ensureAll as).map (insAll vs constObj) := by
  induction vs with
  | nil => simp only [insAll, List.foldr_nil]; cases ensureAll as <;> rfl
  | cons p vs ih =>
    simp only [insAll, List.foldr_cons] at ih ⊢
    rw [ensure_ins, ih]
    cases ensureAll as <;> rfl

/-- The variables after the statement that makes the lazy function. -/
theorem made_insAll (g : Glue) (s : State D W E S) (h f : UFn D W E S) (vs : List (Nat × Val D)) (deps : List (ArgRef D W E S)) :
    (∃ ds, ds.length = deps.length ∧ step g s (.mk h deps) = (.unit, ⟨s.vars ++ [lzy (.regularized h) (Cache.empty h.ret) ds], s.env⟩) ∧
      step g s (.mk f (insAll vs .value deps)) = (.unit, ⟨s.vars ++ [lzy (.regularized f) (Cache.empty f.ret) (insAll vs constObj ds)], s.env⟩)) ∨
    (step g s (.mk h deps) = (.invalid, s) ∧ step g s (.mk f (insAll vs .value deps)) = (.invalid, s)) := by
  simp only [step, resolve_insAll]
  rcases h1 : resolveAll s.vars deps with _ | as
  · exact .inr ⟨rfl, rfl⟩
  · simp only [Option.bind_some, Option.map_some, pigroLazy, ensure_insAll]
    rcases h2 : ensureAll as with _ | ds
    · exact .inr ⟨rfl, rfl⟩
    · exact .inl ⟨ds, (ensureAll_len as ds h2).trans (resolveAll_len s.vars deps as h1), rfl, rfl⟩

/-! ### All constants among the dependencies -/

/-- Where the constants are. -/
def places : List (ArgRef D W E S) → List (Nat × Val D)
  | [] => []
  | .value v :: deps => (0, v) :: (places deps)
  | _ :: deps => (places deps).map fun p => (p.1 + 1, p.2)

omit [CxxData D] in
theorem insAll_succ {α : Type} (c : Val D → α) (x : α) (l : List α) (vs : List (Nat × Val D)) :
    insAll (vs.map fun p => (p.1 + 1, p.2)) c (x :: l) = x :: insAll vs c l := by
  induction vs with
  | nil => rfl
  | cons p vs ih =>
    simp only [insAll, List.map_cons, List.foldr_cons] at ih ⊢
    rw [ih, ins]

omit [CxxData D] in
theorem insAll_varying (deps : List (ArgRef D W E S)) : insAll (places deps) .value (varying deps) = deps := by
  induction deps with
  | nil => rfl
  | cons d deps ih =>
    cases d with
    | value v =>
      simp only [places, varying, insAll, List.foldr_cons] at ih ⊢
      rw [ih, ins_zero]
    | _ => simp only [places, varying, insAll_succ, ih]

omit [CxxData D] in
theorem fillIn_eq (deps : List (ArgRef D W E S)) : ∀ (xs : List (Val D)), xs.length = (varying deps).length → fillIn deps xs = insAll (places deps) id xs := by
  induction deps with
  | nil =>
    intro xs hx
    rcases xs with _ | ⟨x, xs⟩
    · rfl
    · simp [varying] at hx
  | cons d deps ih =>
    intro xs hx
    cases d with
    | value v =>
      simp only [varying] at hx
      have := ih xs hx
      simp only [fillIn, places, insAll, List.foldr_cons, id] at this ⊢
      rw [this, ins_zero]
    | _ =>
      rcases xs with _ | ⟨x, xs⟩
      · simp [varying] at hx
      · simp only [varying, List.length_cons, Nat.add_right_cancel_iff] at hx
        simp only [fillIn, places, insAll_succ, ih xs hx]

omit [CxxData D] in
theorem FillsIn.inserts {h f : UFn D W E S} {deps : List (ArgRef D W E S)} (hs : FillsIn h f deps) : InsertsAll h f (places deps) (varying deps).length :=
  ⟨hs.1, hs.2.1, fun s xs w hx => by rw [hs.2.2 s xs w hx, fillIn_eq deps xs hx]⟩

end Pigro.Rfc
