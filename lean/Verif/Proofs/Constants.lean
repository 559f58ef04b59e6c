import Verif.Spec.Constants
import Verif.Proofs.Fusion
/-!
# Proof: a constant written into the function (C99)
-/
namespace Pigro.Rfc
variable {D W E S : Type} 

theorem ins_zero {α : Type} (x : α) (l : List α) : ins 0 x l = x :: l := by cases l <;> rfl

theorem ins_length {α : Type} (x : α) : ∀ (n : Nat) (l : List α), (ins n x l).length = l.length + 1
  | _, [] => by simp [ins]
  | 0, _ :: _ => by simp [ins]
  | n + 1, _ :: l => by simp [ins, ins_length x n l]

theorem ins_map {α β : Type} (f : α → β) (x : α) : ∀ (n : Nat) (l : List α), (ins n x l).map f = ins n (f x) (l.map f)
  | _, [] => by simp [ins]
  | 0, _ :: _ => by simp [ins]
  | n + 1, _ :: l => by simp [ins, ins_map f x n l]

theorem ins_all {α : Type} (p : α → Bool) (x : α) : ∀ (n : Nat) (l : List α), (ins n x l).all p = (p x && l.all p)
  | _, [] => by simp [ins]
  | 0, _ :: _ => by simp [ins]
  | n + 1, y :: l => by
    simp only [ins, List.all_cons, ins_all p x n l]
    cases p x <;> cases p y <;> simp

theorem ins_any {α : Type} (p : α → Bool) (x : α) : ∀ (n : Nat) (l : List α), (ins n x l).any p = (p x || l.any p)
  | _, [] => by simp [ins]
  | 0, _ :: _ => by simp [ins]
  | n + 1, y :: l => by
    simp only [ins, List.any_cons, ins_any p x n l]
    cases p x <;> cases p y <;> simp

theorem spread_many (a b : Val D) (l : List (Val D)) : Rem.spread (a :: b :: l) = a :: b :: l := by simp [Rem.spread]

/-- `given` specializes, unless there is a single other argument that may be spread, or none and the constant may be. -/
theorem given_specializes (k : Nat) (f : UFn D W E S) (n : Nat) (v : Val D) (N : Nat) (hN : N ≠ 1) (hv : N = 0 → Rem.spread [v] = [v]) :
    Specializes (given k f n v) f n v N := by
  refine ⟨rfl, rfl, fun s xs w hx => ?_⟩
  rcases xs with _ | ⟨a, _ | ⟨b, l⟩⟩
  · have := hv hx.symm
    have h0 : Rem.spread ([] : List (Val D)) = [] := by simp [Rem.spread]
    have h1 : ins n v ([] : List (Val D)) = [v] := by simp [ins]
    rw [h0, h1, this]
    show f.run s (ins n v []) w = _
    rw [h1]
  · exact absurd hx.symm hN
  · rw [spread_many]
    have h2 : 2 ≤ (ins n v (a :: b :: l)).length := by rw [ins_length]; simp
    rcases h3 : ins n v (a :: b :: l) with _ | ⟨x, _ | ⟨y, ys⟩⟩
    · simp [h3] at h2
    · simp [h3] at h2
    · rw [spread_many, ← h3]; rfl

variable [CxxData D]

theorem lazyValue_eval (g : Glue) (hg : ConstantsLive g) (v : Val D) (env : Env D W S) :
    evalN g (.lazyValue v false : Obj D W E S) env = (.ok ⟨v, false, true⟩, .lazyValue v false, env) := by
  rw [evalN]
  rcases hg with h | h <;> simp [h]

theorem deps_ins (g : Glue) (hg : ConstantsLive g) (v : Val D) : ∀ (n : Nat) (ds : List (Obj D W E S)) (env : Env D W S),
    evalDeps g (ins n (.lazyValue v false) ds) env =
      ((evalDeps g ds env).1.map (ins n ⟨v, false, true⟩), ins n (.lazyValue v false) (evalDeps g ds env).2.1, (evalDeps g ds env).2.2)
  | n, [], env => by simp [ins, evalDeps, lazyValue_eval g hg, Out.map]
  | 0, d :: ds, env => by
    rw [ins, evalDeps, lazyValue_eval g hg, ins_zero]
    have : (ins 0 (⟨v, false, true⟩ : LazyRes D)) = fun l => ⟨v, false, true⟩ :: l := funext fun l => ins_zero _ l
    rw [this]
  | n + 1, d :: ds, env => by
    rw [ins, evalDeps, evalDeps]
    rcases h : evalN g d env with ⟨o, d', env1⟩
    rcases o with r | e | _ | _
    · simp only [deps_ins g hg v n ds env1]
      rcases evalDeps g ds env1 with ⟨o, ds', env2⟩
      cases o <;> simp [Out.map, ins]
    all_goals simp [Out.map, ins]

theorem deps_kept (g : Glue) : ∀ (ds : List (Obj D W E S)) (env : Env D W S), (evalDeps g ds env).2.1.length = ds.length
  | [], env => by simp [evalDeps]
  | d :: ds, env => by
    rw [evalDeps]
    rcases h : evalN g d env with ⟨o, d', env1⟩
    rcases o with r | e | _ | _
    · simp only [List.length_cons, deps_kept g ds env1]
    all_goals simp

variable {g : Glue} {h f : UFn D W E S} {n N : Nat} {v : Val D} {care : Ev D S → Bool}

/-- Events nobody cares for: calls of functions with these numbers. -/
def Skips (care : Ev D S → Bool) (ks : List Nat) : Prop := ∀ k ∈ ks, ∀ args s s', care (.call .fn k args s s') = false

theorem tail_step (hs : Specializes h f n v N) (hc : Skips care [h.id, f.id]) (st : S) (c : Cache D) (rs : List (LazyRes D)) (hl : rs.length = N) {x y : Env D W S} (hn : Near care x y) :
    let a := coreTail g (.regularized ⟨h.toFnCode, st⟩) c rs x
    let b := coreTail g (.regularized ⟨f.toFnCode, st⟩) c (ins n ⟨v, false, true⟩ rs) y
    a.1 = b.1 ∧ (∃ st', a.2.1 = .regularized ⟨h.toFnCode, st'⟩ ∧ b.2.1 = .regularized ⟨f.toFnCode, st'⟩) ∧ a.2.2.1 = b.2.2.1 ∧ Near care a.2.2.2 b.2.2.2 := by
  dsimp only
  have e1 : any LazyRes.isChanged (ins n ⟨v, false, true⟩ rs) = any LazyRes.isChanged rs := by simp [any_eq, ins_any]
  cases hch : (!c.engaged || any LazyRes.isChanged rs) with
  | false =>
    simp only [coreTail, e1, hch, Bool.false_eq_true, if_false]
    rcases c.deref with _ | w
    · exact ⟨rfl, ⟨st, rfl, rfl⟩, rfl, hn⟩
    · exact ⟨rfl, ⟨st, rfl, rfl⟩, rfl, hn⟩
  | true =>
    have e2 : (ins n (⟨v, false, true⟩ : LazyRes D) rs).all (·.live) = rs.all (·.live) := by simp [ins_all]
    simp only [coreTail, e1, hch, if_true, readValues, e2]
    cases hlv : rs.all (·.live) with
    | false => exact ⟨rfl, ⟨st, rfl, rfl⟩, rfl, hn⟩
    | true =>
      simp only [if_true, transform_eq, Rem.spread_eq, ins_map]
      have hr := hs.2.2 st (rs.map LazyRes.value) x.w (by simpa using hl)
      have hw : x.w = y.w := hn.1
      rcases hq : f.run st (Rem.spread (ins n v (rs.map LazyRes.value))) y.w with ⟨q, st', w'⟩
      rw [hw, hq] at hr
      have hnear : ∀ l : List (Ev D S), Near care ⟨w', x.log ++ [.call .fn h.id (Rem.spread (rs.map LazyRes.value)) st st'] ++ l⟩
          ⟨w', y.log ++ [.call .fn f.id (Rem.spread (ins n v (rs.map LazyRes.value))) st st'] ++ l⟩ := by
        intro l
        refine ⟨rfl, ?_⟩
        simp [hc h.id (by simp), hc f.id (by simp), hn.2]
      rcases q with e | r
      · have k1 : (Fun.regularized ⟨h.toFnCode, st⟩ : Fun D W E S).call g (Rem.spread (rs.map LazyRes.value)) x =
            (.thrown e, .regularized ⟨h.toFnCode, keep g.regParamByValue st st'⟩, ⟨w', x.log ++ [.call .fn h.id (Rem.spread (rs.map LazyRes.value)) st st']⟩) := by
          simp only [Fun.call, UFn.invoke, hw, hr]
          cases g.regParamByValue <;> rfl
        have k2 : (Fun.regularized ⟨f.toFnCode, st⟩ : Fun D W E S).call g (Rem.spread (ins n v (rs.map LazyRes.value))) y =
            (.thrown e, .regularized ⟨f.toFnCode, keep g.regParamByValue st st'⟩, ⟨w', y.log ++ [.call .fn f.id (Rem.spread (ins n v (rs.map LazyRes.value))) st st']⟩) := by
          simp only [Fun.call, UFn.invoke, hq]
          cases g.regParamByValue <;> rfl
        rw [k1, k2]
        have := hnear []
        simp only [List.append_nil] at this
        exact ⟨rfl, ⟨_, rfl, rfl⟩, rfl, this⟩
      · have k1 : (Fun.regularized ⟨h.toFnCode, st⟩ : Fun D W E S).call g (Rem.spread (rs.map LazyRes.value)) x =
            (.ok (f.ret.regularize r), .regularized ⟨h.toFnCode, keep g.regParamByValue st st'⟩, ⟨w', x.log ++ [.call .fn h.id (Rem.spread (rs.map LazyRes.value)) st st']⟩) := by
          simp only [Fun.call, UFn.invoke, hw, hr, ← hs.1]
          cases g.regParamByValue <;> rfl
        have k2 : (Fun.regularized ⟨f.toFnCode, st⟩ : Fun D W E S).call g (Rem.spread (ins n v (rs.map LazyRes.value))) y =
            (.ok (f.ret.regularize r), .regularized ⟨f.toFnCode, keep g.regParamByValue st st'⟩, ⟨w', y.log ++ [.call .fn f.id (Rem.spread (ins n v (rs.map LazyRes.value))) st st']⟩) := by
          simp only [Fun.call, UFn.invoke, hq]
          cases g.regParamByValue <;> rfl
        rw [k1, k2]
        simp only
        rcases (c.assign (f.ret.regularize r)).deref with _ | z
        · have := hnear []
          simp only [List.append_nil] at this
          exact ⟨rfl, ⟨_, rfl, rfl⟩, rfl, this⟩
        · exact ⟨rfl, ⟨_, rfl, rfl⟩, rfl, hnear _⟩

/-- The object without the constant, and the one with it. -/
def Bare (h f : UFn D W E S) (n N : Nat) (v : Val D) (a b : Obj D W E S) : Prop :=
  ∃ st c ds, a = .core (.regularized ⟨h.toFnCode, st⟩) c ds ∧ b = .core (.regularized ⟨f.toFnCode, st⟩) c (ins n (.lazyValue v false) ds) ∧ ds.length = N

theorem bare_step (hg : ConstantsLive g) (hs : Specializes h f n v N) (hc : Skips care [h.id, f.id]) {a b : Obj D W E S} (hb : Bare h f n N v a b) {x y : Env D W S} (hn : Near care x y) :
    (evalN g a x).1 = (evalN g b y).1 ∧ Bare h f n N v (evalN g a x).2.1 (evalN g b y).2.1 ∧ Near care (evalN g a x).2.2 (evalN g b y).2.2 := by
  obtain ⟨st, c, ds, rfl, rfl, hl⟩ := hb
  obtain ⟨d1, d2, d3⟩ := deps_near hn g ds
  have hd := deps_ins g hg v n ds y
  have hk := deps_kept g ds x
  have hrs := evalDeps_length g ds x
  rcases e1 : evalDeps g ds x with ⟨o, ds', x'⟩
  rcases e2 : evalDeps g ds y with ⟨o', ds'', y'⟩
  rw [e1] at hk hrs
  rw [e2] at hd
  rw [e1, e2] at d1 d2 d3
  obtain rfl : o = o' := d1
  obtain rfl : ds' = ds'' := d2
  replace d3 : Near care x' y' := d3
  have hins : ∀ (b : Bool), keep b (ins n (.lazyValue v false) ds) (ins n (.lazyValue v false) ds') = ins n (.lazyValue v false) (keep b ds ds') := by
    intro b; cases b <;> rfl
  have hlen : ∀ (b : Bool), (keep b ds ds').length = N := by
    intro b; cases b
    · exact hk.trans hl
    · exact hl
  rcases o with rs | e | _ | _
  · obtain ⟨t1, ⟨st', t2, t3⟩, t4, t5⟩ := tail_step (g := g) (care := care) hs hc st c rs ((hrs rs rfl).trans hl) d3
    rw [evalN_core_ok g _ c ds x e1, evalN_core_ok g _ c _ y hd]
    simp only [hins, t1, t2, t3, t4]
    refine ⟨trivial, ⟨keep g.coreParamsByValue st st', keep g.bindFrontCopies c (coreTail g (Fun.regularized ⟨f.toFnCode, st⟩) c (ins n ⟨v, false, true⟩ rs) y').2.2.1, keep g.coreParamsByValue ds ds', ?_, ?_, hlen _⟩, t5⟩
    · cases g.coreParamsByValue <;> rfl
    · cases g.coreParamsByValue <;> rfl
  all_goals
    rw [evalN_core_fail g _ c ds x e1 rfl, evalN_core_fail g _ c _ y hd rfl, hins]
    exact ⟨rfl, ⟨st, c, keep g.coreParamsByValue ds ds', rfl, rfl, hlen _⟩, d3⟩

/-- As clients hold them. -/
def BareTwo (h f : UFn D W E S) (n N : Nat) (v : Val D) (a b : Obj D W E S) : Prop :=
  ∃ x y, a = .unregularized (.unwrapped x) ∧ b = .unregularized (.unwrapped y) ∧ Bare h f n N v x y

theorem constant_alike (hg : ConstantsLive g) (hs : Specializes h f n v N) (hc : Skips care [h.id, f.id]) {a b : Obj D W E S} (hb : BareTwo h f n N v a b) : Alike g care a b := by
  refine alike_of_bisim g care (BareTwo h f n N v) ?_ hb
  rintro _ _ x y t ⟨a, b, rfl, rfl, hb⟩ hn
  obtain ⟨h1, h2, h3⟩ := bare_step hg hs hc hb hn
  have hrv : a.valueIsRV = b.valueIsRV := by
    obtain ⟨st, c, ds, rfl, rfl, _⟩ := hb
    rfl
  have hk : ∀ q : Bool, Bare h f n N v (keep q a (evalN g a x).2.1) (keep q b (evalN g b y).2.1) := by
    intro q; cases q
    · exact h2
    · exact hb
  cases t with
  | call =>
    simp only [test]
    rw [call0_facade, call0_facade, h1, hrv]
    exact ⟨rfl, ⟨_, _, rfl, rfl, hk _⟩, h3⟩
  | poll =>
    simp only [test]
    rw [evalN_facade, evalN_facade, h1]
    exact ⟨rfl, ⟨_, _, rfl, rfl, hk _⟩, h3⟩
  | poke p => exact ⟨rfl, ⟨a, b, rfl, rfl, hb⟩, by simp only [test]; exact ⟨by rw [hn.1], hn.2⟩⟩

/-! ### Programs -/

omit [CxxData D] in
theorem resolve_ins (vars : List (Obj D W E S)) (v : Val D) : ∀ (n : Nat) (deps : List (ArgRef D W E S)),
    resolveAll vars (ins n (.value v) deps) = (resolveAll vars deps).map (ins n (.value v))
  | n, [] => by simp [ins, resolveAll, ArgRef.resolve]
  | 0, d :: deps => by
    rw [ins, resolveAll, show (ArgRef.value v : ArgRef D W E S).resolve vars = some (.value v) from rfl]
    rcases resolveAll vars (d :: deps) with _ | l
    · rfl
    · simp [ins_zero]
  | n + 1, d :: deps => by
    rw [ins, resolveAll, resolveAll, resolve_ins vars v n deps]
    rcases d.resolve vars with _ | x
    · rfl
    · rcases resolveAll vars deps with _ | l <;> simp [ins]

theorem ensure_ins (v : Val D) : ∀ (n : Nat) (as : List (DepArg D W E S)), ensureAll (ins n (.value v) as) = (ensureAll as).map (ins n (.lazyValue v false))
  | n, [] => by
    have : ensureLazy (DepArg.value v : DepArg D W E S) = some (.lazyValue v false) := rfl
    simp [ins, ensureAll, this]
  | 0, a :: as => by
    rw [ins, ensureAll, show ensureLazy (DepArg.value v : DepArg D W E S) = some (.lazyValue v false) from rfl]
    rcases ensureAll (a :: as) with _ | l
    · rfl
    · simp [ins_zero]
  | n + 1, a :: as => by
    rw [ins, ensureAll, ensureAll, ensure_ins v n as]
    rcases ensureLazy a with _ | x
    · rfl
    · rcases ensureAll as with _ | l <;> simp [ins]

omit [CxxData D] in
theorem resolveAll_len (vars : List (Obj D W E S)) : ∀ (deps : List (ArgRef D W E S)) (as : List (DepArg D W E S)), resolveAll vars deps = some as → as.length = deps.length
  | [], as, h => by simp only [resolveAll, Option.some.injEq] at h; rw [← h]; rfl
  | d :: deps, as, h => by
    rw [resolveAll] at h
    rcases h1 : d.resolve vars with _ | x
    · simp [h1] at h
    · rcases h2 : resolveAll vars deps with _ | l
      · simp [h1, h2] at h
      · simp only [h1, h2, Option.some.injEq] at h
        rw [← h, List.length_cons, List.length_cons, resolveAll_len vars deps l h2]

theorem ensureAll_len : ∀ (as : List (DepArg D W E S)) (ds : List (Obj D W E S)), ensureAll as = some ds → ds.length = as.length
  | [], ds, h => by simp only [ensureAll, Option.some.injEq] at h; rw [← h]; rfl
  | a :: as, ds, h => by
    rw [ensureAll] at h
    rcases h1 : ensureLazy a with _ | x
    · simp [h1] at h
    · rcases h2 : ensureAll as with _ | l
      · simp [h1, h2] at h
      · simp only [h1, h2, Option.some.injEq] at h
        rw [← h, List.length_cons, List.length_cons, ensureAll_len as l h2]

/-- The variables after the statement that makes the lazy function. -/
theorem made_ins (g : Glue) (s : State D W E S) (h f : UFn D W E S) (n : Nat) (v : Val D) (deps : List (ArgRef D W E S)) :
    (∃ ds, ds.length = deps.length ∧ step g s (.mk h deps) = (.unit, ⟨s.vars ++ [lzy (.regularized h) (Cache.empty h.ret) ds], s.env⟩) ∧
      step g s (.mk f (ins n (.value v) deps)) = (.unit, ⟨s.vars ++ [lzy (.regularized f) (Cache.empty f.ret) (ins n (.lazyValue v false) ds)], s.env⟩)) ∨
    (step g s (.mk h deps) = (.invalid, s) ∧ step g s (.mk f (ins n (.value v) deps)) = (.invalid, s)) := by
  simp only [step, resolve_ins]
  rcases h1 : resolveAll s.vars deps with _ | as
  · exact .inr ⟨rfl, rfl⟩
  · simp only [Option.bind_some, Option.map_some, pigroLazy, ensure_ins]
    rcases h2 : ensureAll as with _ | ds
    · exact .inr ⟨rfl, rfl⟩
    · exact .inl ⟨ds, (ensureAll_len as ds h2).trans (resolveAll_len s.vars deps as h1), rfl, rfl⟩

end Pigro.Rfc
