import Verif.Proofs.Refactor
import Verif.Proofs.Remember
/-!
# Proof: one function or two (C98)
-/
namespace Pigro.Rfc
variable {D W E S : Type} [CxxData D]

/-- To be alike it is enough to stay related. -/
theorem alike_of_bisim (g : Glue) (care : Ev D S → Bool) (R : Obj D W E S → Obj D W E S → Prop)
    (hstep : ∀ a b x y t, R a b → Near care x y → (test g a x t).1 = (test g b y t).1 ∧ R (test g a x t).2.1 (test g b y t).2.1 ∧ Near care (test g a x t).2.2 (test g b y t).2.2)
    {a b : Obj D W E S} (h : R a b) : Alike g care a b := by
  have key : ∀ ts a b (x y : Env D W S), R a b → Near care x y → (tests g a x ts).1 = (tests g b y ts).1 ∧ Near care (tests g a x ts).2.2 (tests g b y ts).2.2 := by
    intro ts
    induction ts with
    | nil => intro a b x y _ hn; exact ⟨rfl, hn⟩
    | cons t ts ih =>
      intro a b x y h hn
      obtain ⟨h1, h2, h3⟩ := hstep a b x y t h hn
      obtain ⟨k1, k2⟩ := ih _ _ _ _ h2 h3
      exact ⟨by simp only [tests, h1, k1], k2⟩
  exact fun ts w => key ts a b _ _ h ⟨rfl, rfl⟩

theorem deps_near {care : Ev D S → Bool} {x y : Env D W S} (h : Near care x y) (g : Glue) (ds : List (Obj D W E S)) :
    (evalDeps g ds x).1 = (evalDeps g ds y).1 ∧ (evalDeps g ds x).2.1 = (evalDeps g ds y).2.1 ∧ Near care (evalDeps g ds x).2.2 (evalDeps g ds y).2.2 := by
  rcases x with ⟨w, l⟩
  rcases y with ⟨w', l'⟩
  obtain ⟨rfl, hl⟩ := h
  rw [evalDeps_log g ds w l, evalDeps_log g ds w l']
  exact ⟨rfl, rfl, rfl, by simp only at hl ⊢; simp [hl]⟩

/-- Events nobody cares for: comparisons, and calls of functions with these numbers. -/
def Ignores (care : Ev D S → Bool) (ks : List Nat) : Prop :=
  (∀ a b, care (.cmp a b) = false) ∧ ∀ k ∈ ks, ∀ args s s', care (.call .fn k args s s') = false

omit [CxxData D] in
theorem filter_cmp {care : Ev D S → Bool} {ks : List Nat} (h : Ignores care ks) (c : Cache D) (v : Val D) : (cmpEvents c v : List (Ev D S)).filter care = [] := by
  rcases c with (_ | _) | _ <;> simp [cmpEvents, h.1]

omit [CxxData D] in
/-- Near environments stay near if only ignored events are added on either side. -/
theorem near_add {care : Ev D S → Bool} {x y : Env D W S} (h : Near care x y) {w w' : W} (hw : w = w') {l l' : List (Ev D S)} (hl : l.filter care = []) (hl' : l'.filter care = []) :
    Near care ⟨w, x.log ++ l⟩ ⟨w', y.log ++ l'⟩ := ⟨hw, by simp [hl, hl', h.2]⟩

variable {g : Glue} {u f : UFn D W E S} {φ : List (Val D) → Val D} {k : Nat} {care : Ev D S → Bool}

/-- The object with one function, and the one with two. -/
structure Parts (u f : UFn D W E S) (φ : List (Val D) → Val D) (c cu : Cache D) : Prop where
  fits : c.Fits f.ret
  fitsU : cu.Fits u.ret
  val : c.val? = cu.val?.map fun v => f.ret.regularize (φ (Rem.spread [v]))

/-- ... as related objects. -/
def One (k : Nat) (u f : UFn D W E S) (φ : List (Val D) → Val D) (a b : Obj D W E S) : Prop :=
  ∃ st sf c cu ds, a = .core (.regularized ⟨(after k f.ret φ u).toFnCode, st⟩) c ds ∧
    b = .core (.regularized ⟨f.toFnCode, sf⟩) c [lzy (.regularized ⟨u.toFnCode, st⟩) cu ds] ∧ Parts u f φ c cu

omit [CxxData D] in
theorem coreLive_true (hr : g.resultByRef = false) (c : Cache D) : g.coreLive c = true := by
  cases c <;> simp [Glue.coreLive, hr]

omit [CxxData D] in
theorem through_id (o : Out E (LazyRes D)) : o.map (LazyRes.through false) = o := by
  cases o <;> simp [Out.map, LazyRes.through]

theorem inner_eval (hr : g.resultByRef = false) (x : Obj D W E S) (env : Env D W S) :
    evalN g (.unregularized (.unwrapped x)) env =
      ((evalN g x env).1, .unregularized (.unwrapped (keep (g.facadeParamByValue || g.unwrapParamByValue) x (evalN g x env).2.1)), (evalN g x env).2.2) := by
  rw [evalN_facade, hr]
  simp [through_id]

/-- What is left of the objects in copies, if both leave the same. -/
def Even (g : Glue) : Prop := g.unwrapParamByValue = false ∧ g.facadeParamByValue = false ∧ (g.bindFrontCopies = true ∨ g.coreParamsByValue = false)

omit [CxxData D] in
/-- The objects after a call. -/
theorem one_keep (hk : Even g) {c cu c' cu' : Cache D} (hp : Parts u f φ c cu) (hp' : Parts u f φ c' cu') (st st' sf sf' : S) (ds ds' : List (Obj D W E S)) :
    One k u f φ
      (.core (keep g.coreParamsByValue (.regularized ⟨(after k f.ret φ u).toFnCode, st⟩) (.regularized ⟨(after k f.ret φ u).toFnCode, st'⟩)) (keep g.bindFrontCopies c c')
        (keep g.coreParamsByValue ds ds'))
      (.core (keep g.coreParamsByValue (.regularized ⟨f.toFnCode, sf⟩) (.regularized ⟨f.toFnCode, sf'⟩)) (keep g.bindFrontCopies c c')
        (keep g.coreParamsByValue [lzy (.regularized ⟨u.toFnCode, st⟩) cu ds]
          [.unregularized (.unwrapped (keep (g.facadeParamByValue || g.unwrapParamByValue)
            (.core (.regularized ⟨u.toFnCode, st⟩) cu ds)
            (.core (keep g.coreParamsByValue (.regularized ⟨u.toFnCode, st⟩) (.regularized ⟨u.toFnCode, st'⟩)) (keep g.bindFrontCopies cu cu') (keep g.coreParamsByValue ds ds'))))])) := by
  obtain ⟨h1, h2, h3⟩ := hk
  rw [h1, h2]
  cases hc : g.coreParamsByValue with
  | false =>
    cases hb : g.bindFrontCopies with
    | false => exact ⟨st', sf', c', cu', ds', rfl, rfl, hp'⟩
    | true => exact ⟨st', sf', c, cu, ds', rfl, rfl, hp⟩
  | true =>
    have hb : g.bindFrontCopies = true := by rcases h3 with h3 | h3
                                             · exact h3
                                             · rw [hc] at h3; cases h3
    rw [hb]
    exact ⟨st, sf, c, cu, ds, rfl, rfl, hp⟩

omit [CxxData D] in
theorem keep_self {α : Type} (b : Bool) (x : α) : keep b x x = x := by cases b <;> rfl

/-- The functions' results, compared with the last ones. -/
theorem settled (hφ : Respects f.ret φ) {c cu : Cache D} (h : Parts u f φ c cu) (x : Val D) (he : c.engaged = true) (hn : cu.ne (u.ret.regularize x) = false) :
    c.val? = some (f.ret.regularize (φ (Rem.spread [u.ret.regularize x]))) ∧ c.ne (f.ret.regularize (φ (Rem.spread [u.ret.regularize x]))) = false ∧
    c.assign (f.ret.regularize (φ (Rem.spread [u.ret.regularize x]))) = c := by
  have hv : c.val? = some (f.ret.regularize (φ (Rem.spread [u.ret.regularize x]))) := by
    rw [h.val]
    rcases cu with (_ | a) | ⟨⟨b⟩⟩
    · simp [Cache.ne] at hn
    · have := hφ.1 _ _ hn
      simp [Cache.val?, this]
    · cases b with
      | false => simp [Cache.ne, OptRV.ne, OptRV.ofRV] at hn
      | true =>
        have hu := h.fitsU
        simp only [Cache.Fits] at hu
        have : u.ret.regularize x = .rvoid := by
          rcases hr : u.ret with _ | _ | _
          · rfl
          · rfl
          · exact absurd hr hu
        rw [this]
        rfl
  refine ⟨hv, ?_, ?_⟩
  · rcases c with (_ | a) | ⟨⟨b⟩⟩
    · simp [Cache.val?] at hv
    · simp only [Cache.val?, Option.some.injEq] at hv
      simp only [Cache.ne]
      rw [hv]
      exact hφ.2 _
    · cases b with
      | false => simp [Cache.engaged, OptRV.toBool] at he
      | true => rfl
  · rcases c with (_ | a) | ⟨⟨b⟩⟩
    · simp [Cache.val?] at hv
    · simp only [Cache.val?, Option.some.injEq] at hv
      simp [Cache.assign, hv]
    · cases b with
      | false => simp [Cache.engaged, OptRV.toBool] at he
      | true => rfl

theorem core_step (hr : g.resultByRef = false) (hf : Computes f φ) (hφ : Respects f.ret φ) (hc : Ignores care [k, u.id, f.id])
    {a b : Obj D W E S} (h : One k u f φ a b) {x y : Env D W S} (hn : Near care x y) :
    (evalN g a x).1 = (evalN g b y).1 ∧ (Even g → One k u f φ (evalN g a x).2.1 (evalN g b y).2.1) ∧ Near care (evalN g a x).2.2 (evalN g b y).2.2 := by
  obtain ⟨st, sf, c, cu, ds, rfl, rfl, hp⟩ := h
  obtain ⟨d1, d2, d3⟩ := deps_near hn g ds
  rcases e1 : evalDeps g ds x with ⟨o, ds', x'⟩
  rcases e2 : evalDeps g ds y with ⟨o', ds'', y'⟩
  rw [e1, e2] at d1 d2 d3
  obtain rfl : o = o' := d1
  obtain rfl : ds' = ds'' := d2
  replace d3 : Near care x' y' := d3
  have hnone : ∀ (F : Fun D W E S) (d : Obj D W E S) (o : Out E (LazyRes D)) (d' : Obj D W E S) (y1 : Env D W S), evalN g d y = (o, d', y1) → o.isOk = false →
      evalN g (.core F c [d]) y = (o, .core F c (keep g.coreParamsByValue [d] [d']), y1) := by
    intro F d o d' y1 he ho
    have hd : evalDeps g [d] y = (o.map fun _ => [], [d'], y1) := by
      rw [evalDeps, he]
      cases o <;> simp_all [Out.isOk]
    rw [evalN_core_fail g F c [d] y hd (by cases o <;> simp_all [Out.isOk, Out.map])]
    cases o <;> simp_all [Out.isOk, Out.map]
  have hsome : ∀ (F : Fun D W E S) (d : Obj D W E S) (r : LazyRes D) (d' : Obj D W E S) (y1 : Env D W S), evalN g d y = (.ok r, d', y1) →
      evalN g (.core F c [d]) y = ((coreTail g F c [r] y1).1, .core (keep g.coreParamsByValue F (coreTail g F c [r] y1).2.1) (keep g.bindFrontCopies c (coreTail g F c [r] y1).2.2.1)
        (keep g.coreParamsByValue [d] [d']), (coreTail g F c [r] y1).2.2.2) := by
    intro F d r d' y1 he
    have hd : evalDeps g [d] y = (.ok [r], [d'], y1) := by simp [evalDeps, he, Out.map]
    rw [evalN_core_ok g F c [d] y hd]
  have hinner := inner_eval hr (.core (.regularized ⟨u.toFnCode, st⟩) cu ds) y
  have heng : c.engaged = cu.engaged := by rw [Cache.engaged_val?, Cache.engaged_val?, hp.val]; simp
  rcases o with rs | e | _ | _
  · rw [evalN_core_ok g _ cu ds y e2] at hinner
    rw [evalN_core_ok g _ c ds x e1]
    simp only at hinner ⊢
    cases hch : (!cu.engaged || any LazyRes.isChanged rs) with
    | false =>
      simp only [Bool.or_eq_false_iff, Bool.not_eq_false'] at hch
      obtain ⟨v, hv⟩ : ∃ v, cu.val? = some v := by
        have := hch.1; rw [Cache.engaged_val?] at this; exact Option.isSome_iff_exists.1 this
      have hcv : c.val? = some (f.ret.regularize (φ (Rem.spread [v]))) := by rw [hp.val, hv]; rfl
      rw [coreTail_skip g _ cu rs y' v hch.2 hv] at hinner
      rw [coreTail_skip g _ c rs x' _ hch.2 hcv, hsome _ _ _ _ _ hinner, coreTail_skip g _ c _ y' _ (by simp [any_eq]) hcv]
      exact ⟨rfl, fun hk => by simpa only [keep_self] using one_keep hk hp hp st st sf sf ds ds', d3⟩
    | true =>
      have hch' : (!c.engaged || any LazyRes.isChanged rs) = true := by rw [heng]; exact hch
      rcases hrd : readValues rs with _ | vals
      · have t1 : ∀ (F : Fun D W E S) (c : Cache D) (e : Env D W S), (!c.engaged || any LazyRes.isChanged rs) = true → coreTail g F c rs e = (.ub, F, c, e) := by
          intro F c e h
          simp [coreTail, h, hrd]
        rw [t1 _ cu y' hch] at hinner
        rw [t1 _ c x' hch', hnone _ _ _ _ _ hinner rfl]
        exact ⟨rfl, fun hk => by simpa only [keep_self] using one_keep hk hp hp st st sf sf ds ds', d3⟩
      · have hw : x'.w = y'.w := d3.1
        rcases hrun : u.run st vals y'.w with ⟨q, st', w'⟩
        rcases q with e | v
        · have c1 : coreTail g (.regularized ⟨u.toFnCode, st⟩) cu rs y' =
              (.thrown e, .regularized ⟨u.toFnCode, keep g.regParamByValue st st'⟩, cu, ⟨w', y'.log ++ [.call .fn u.id vals st st']⟩) := by
            simp only [coreTail, hch, if_true, hrd, Fun.call, UFn.invoke, hrun, Out.map]
            cases g.regParamByValue <;> rfl
          have c2 : coreTail g (.regularized ⟨(after k f.ret φ u).toFnCode, st⟩) c rs x' =
              (.thrown e, .regularized ⟨(after k f.ret φ u).toFnCode, keep g.regParamByValue st st'⟩, c, ⟨w', x'.log ++ [.call .fn k vals st st']⟩) := by
            have : (after k f.ret φ u).run st vals x'.w = (.error e, st', w') := by simp [after, hw, hrun, Except.map]
            simp only [coreTail, hch', if_true, hrd, Fun.call, UFn.invoke, this, Out.map]
            cases g.regParamByValue <;> rfl
          rw [c1] at hinner
          rw [c2, hnone _ _ _ _ _ hinner rfl]
          exact ⟨rfl, fun hk => by simpa only [keep_self] using one_keep hk hp hp st (keep g.regParamByValue st st') sf sf ds ds', near_add d3 rfl (by simp [hc.2]) (by simp [hc.2])⟩
        · have k1 : (Fun.regularized ⟨u.toFnCode, st⟩ : Fun D W E S).call g vals y' =
              (.ok (u.ret.regularize v), .regularized ⟨u.toFnCode, keep g.regParamByValue st st'⟩, ⟨w', y'.log ++ [.call .fn u.id vals st st']⟩) := by
            simp only [Fun.call, UFn.invoke, hrun]
            cases g.regParamByValue <;> rfl
          have k2 : (Fun.regularized ⟨(after k f.ret φ u).toFnCode, st⟩ : Fun D W E S).call g vals x' =
              (.ok (f.ret.regularize (φ (Rem.spread [u.ret.regularize v]))), .regularized ⟨(after k f.ret φ u).toFnCode, keep g.regParamByValue st st'⟩, ⟨w', x'.log ++ [.call .fn k vals st st']⟩) := by
            have : (after k f.ret φ u).run st vals x'.w = (.ok (φ (Rem.spread [u.ret.regularize v])), st', w') := by simp [after, hw, hrun, Except.map]
            simp only [Fun.call, UFn.invoke, this]
            cases g.regParamByValue <;> rfl
          rw [coreTail_run g _ _ cu rs y' _ vals u.ret v hch hrd k1 hp.fitsU] at hinner
          rw [coreTail_run g _ _ c rs x' _ vals f.ret _ hch' hrd k2 hp.fits, hsome _ _ _ _ _ hinner]
          simp only
          have hlive : readValues [(⟨u.ret.regularize v, cu.ne (u.ret.regularize v), g.coreLive cu⟩ : LazyRes D)] = some (Rem.spread [u.ret.regularize v]) := by
            rw [readValues, if_pos (by simp [coreLive_true hr]), transform_eq, Rem.spread_eq]; rfl
          cases hch2 : (!c.engaged || cu.ne (u.ret.regularize v)) with
          | true =>
            obtain ⟨sf', hfr⟩ := hf sf (Rem.spread [u.ret.regularize v]) w'
            have k3 : (Fun.regularized ⟨f.toFnCode, sf⟩ : Fun D W E S).call g (Rem.spread [u.ret.regularize v])
                ⟨w', y'.log ++ [.call .fn u.id vals st st'] ++ cmpEvents cu (u.ret.regularize v)⟩ =
                (.ok (f.ret.regularize (φ (Rem.spread [u.ret.regularize v]))), .regularized ⟨f.toFnCode, keep g.regParamByValue sf sf'⟩,
                  ⟨w', y'.log ++ [.call .fn u.id vals st st'] ++ cmpEvents cu (u.ret.regularize v) ++ [.call .fn f.id (Rem.spread [u.ret.regularize v]) sf sf']⟩) := by
              simp only [Fun.call, UFn.invoke, hfr]
              cases g.regParamByValue <;> rfl
            rw [coreTail_run g _ _ c _ _ _ _ f.ret _ (by simpa [any_eq, LazyRes.isChanged] using hch2) hlive k3 hp.fits]
            refine ⟨rfl, fun hk => one_keep hk hp ?_ st (keep g.regParamByValue st st') sf (keep g.regParamByValue sf sf') ds ds', ?_⟩
            · exact ⟨Cache.assign_fits _ hp.fits, Cache.assign_fits _ hp.fitsU, by rw [Cache.assign_val? hp.fits, Cache.assign_val? hp.fitsU]; rfl⟩
            · simp only [List.append_assoc]
              exact near_add d3 rfl (by simp [hc.2, filter_cmp hc]) (by simp [hc.2, filter_cmp hc])
          | false =>
            simp only [Bool.or_eq_false_iff, Bool.not_eq_false'] at hch2
            obtain ⟨s1, s2, s3⟩ := settled hφ hp v hch2.1 hch2.2
            rw [coreTail_skip g _ c _ _ _ (by simp [any_eq, hch2.2]) s1, s2, s3]
            refine ⟨rfl, fun hk => ?_, ?_⟩
            · have := one_keep (k := k) (c' := c) (cu' := cu.assign (u.ret.regularize v)) hk hp ?_ st (keep g.regParamByValue st st') sf sf ds ds'
              · simpa only [keep_self] using this
              exact ⟨hp.fits, Cache.assign_fits _ hp.fitsU, by rw [s1, Cache.assign_val? hp.fitsU]; rfl⟩
            · simp only [List.append_assoc]
              exact near_add d3 rfl (by simp [hc.2, filter_cmp hc]) (by simp [hc.2, filter_cmp hc])
  all_goals
    rw [evalN_core_fail g _ cu ds y e2 rfl] at hinner
    rw [evalN_core_fail g _ c ds x e1 rfl, hnone _ _ _ _ _ hinner rfl]
    exact ⟨rfl, fun hk => by simpa only [keep_self] using one_keep hk hp hp st st sf sf ds ds', d3⟩

/-- ... as clients hold them. -/
def Two (k : Nat) (u f : UFn D W E S) (φ : List (Val D) → Val D) (a b : Obj D W E S) : Prop :=
  ∃ x y, a = .unregularized (.unwrapped x) ∧ b = .unregularized (.unwrapped y) ∧ One k u f φ x y

omit [CxxData D] in
/-- Either the objects do not change at all, or evenly. -/
theorem even_or (h : Fuses g) : (g.facadeParamByValue = true ∨ g.unwrapParamByValue = true) ∨ Even g := by
  obtain ⟨_, h⟩ := h
  unfold Even
  revert h
  cases g.facadeParamByValue <;> cases g.unwrapParamByValue <;> cases g.bindFrontCopies <;> cases g.coreParamsByValue <;> decide

omit [CxxData D] in
theorem two_keep (hg : Fuses g) {a b a' b' : Obj D W E S} (h : One k u f φ a b) (h' : Even g → One k u f φ a' b') :
    Two k u f φ (.unregularized (.unwrapped (keep (g.facadeParamByValue || g.unwrapParamByValue) a a')))
      (.unregularized (.unwrapped (keep (g.facadeParamByValue || g.unwrapParamByValue) b b'))) := by
  rcases even_or hg with (h1 | h1) | h1
  · rw [h1]
    exact ⟨a, b, rfl, rfl, h⟩
  · rw [h1]
    cases g.facadeParamByValue <;> exact ⟨a, b, rfl, rfl, h⟩
  · rw [h1.1, h1.2.1]
    exact ⟨a', b', rfl, rfl, h' h1⟩

theorem fusion_alike (hg : Fuses g) (hf : Computes f φ) (hφ : Respects f.ret φ) (hc : Ignores care [k, u.id, f.id])
    {a b : Obj D W E S} (h : Two k u f φ a b) : Alike g care a b := by
  refine alike_of_bisim g care (Two k u f φ) ?_ h
  rintro _ _ x y t ⟨a, b, rfl, rfl, h⟩ hn
  obtain ⟨h1, h2, h3⟩ := core_step hg.1 hf hφ hc h hn
  have hrv : a.valueIsRV = b.valueIsRV := by
    obtain ⟨st, sf, c, cu, ds, rfl, rfl, hp⟩ := h
    rfl
  cases t with
  | call =>
    simp only [test]
    rw [call0_facade, call0_facade, h1, hrv]
    exact ⟨rfl, two_keep hg h h2, h3⟩
  | poll =>
    simp only [test]
    rw [inner_eval hg.1, inner_eval hg.1, h1]
    exact ⟨rfl, two_keep hg h h2, h3⟩
  | poke p => exact ⟨rfl, ⟨a, b, rfl, rfl, h⟩, by simp only [test]; exact ⟨by rw [hn.1], hn.2⟩⟩

/-! ### Programs -/

omit [CxxData D] in
theorem resolveAll_append (vars l : List (Obj D W E S)) : ∀ (deps : List (ArgRef D W E S)) (ds : List (DepArg D W E S)), resolveAll vars deps = some ds →
    resolveAll (vars ++ l) deps = some ds
  | [], _, h => h
  | d :: deps, ds, h => by
    rw [resolveAll] at h
    rcases h1 : d.resolve vars with _ | x
    · simp [h1] at h
    · rcases h2 : resolveAll vars deps with _ | xs
      · simp [h1, h2] at h
      · rw [h1, h2] at h
        have h3 : d.resolve (vars ++ l) = some x := by
          cases d with
          | value v => exact h1
          | function u => exact h1
          | var i =>
            simp only [ArgRef.resolve, Option.map_eq_some_iff] at h1 ⊢
            obtain ⟨o, ho, hx⟩ := h1
            refine ⟨o, ?_, hx⟩
            have : i < vars.length := by
              rcases Nat.lt_or_ge i vars.length with hi | hi
              · exact hi
              · rw [List.getElem?_eq_none hi] at ho; cases ho
            rw [List.getElem?_append_left this, ho]
        rw [resolveAll, h3, resolveAll_append vars l deps xs h2]
        exact h

/-- The variables after the statements that make the lazy functions. -/
theorem made (g : Glue) (s : State D W E S) (u h f : UFn D W E S) (deps : List (ArgRef D W E S)) :
    (∃ ds, run g s [.mk u deps, .mk h deps] = ([.unit, .unit], ⟨s.vars ++ [lzy (.regularized u) (Cache.empty u.ret) ds] ++ [lzy (.regularized h) (Cache.empty h.ret) ds], s.env⟩) ∧
      run g s [.mk u deps, .mk f [.var s.vars.length]] =
        ([.unit, .unit], ⟨s.vars ++ [lzy (.regularized u) (Cache.empty u.ret) ds] ++ [lzy (.regularized f) (Cache.empty f.ret) [lzy (.regularized u) (Cache.empty u.ret) ds]], s.env⟩)) ∨
    (run g s [.mk u deps, .mk h deps] = ([.invalid, .invalid], s) ∧ run g s [.mk u deps, .mk f [.var s.vars.length]] = ([.invalid, .invalid], s)) := by
  rcases h1 : resolveAll s.vars deps with _ | as
  · refine .inr ⟨by simp [run, step, h1], by simp [run, step, h1, resolveAll, ArgRef.resolve]⟩
  · rcases h2 : ensureAll as with _ | ds
    · refine .inr ⟨by simp [run, step, h1, pigroLazy, h2], by simp [run, step, h1, pigroLazy, h2, resolveAll, ArgRef.resolve]⟩
    · refine .inl ⟨ds, ?_, ?_⟩
      · have h3 := resolveAll_append s.vars [lzy (.regularized u) (Cache.empty u.ret) ds] deps as h1
        simp only [run, step, h1, pigroLazy, h2, Option.bind_some, detailLazy, Fun.ret, h3]
      · have h3 : resolveAll (s.vars ++ [lzy (.regularized u) (Cache.empty u.ret) ds]) [.var s.vars.length] = some [.lazyObj (lzy (.regularized u) (Cache.empty u.ret) ds)] := by
          simp [resolveAll, ArgRef.resolve]
        have h4 : ensureAll [DepArg.lazyObj (lzy (.regularized u) (Cache.empty u.ret) ds)] = some [lzy (.regularized u) (Cache.empty u.ret) ds] := rfl
        simp only [run, step, h1, pigroLazy, h2, Option.bind_some, detailLazy, Fun.ret, h3, h4]

end Pigro.Rfc
