import Verif.Spec.Handwritten
import Verif.Proofs.Fresh
import Verif.Proofs.Throwing
/-!
# Proofs: the handwritten program and the program with lazy functions
-/
namespace Pigro
variable {D W E S : Type} [CxxData D]

omit [CxxData D] in
theorem UFn.Kept.keep {b : Bool} {u : UFn D W E S} (h : u.Kept b) (args : List (Val D)) (w : W) :
    Pigro.keep b u { u with st := (u.run u.st args w).2.1 } = { u with st := (u.run u.st args w).2.1 } := by
  rcases h with h | h
  · rw [h]; rfl
  · rw [h u.st args w]; exact keep_self b u

omit [CxxData D] in
theorem UFn.Kept.next {b : Bool} {u : UFn D W E S} (h : u.Kept b) (s : S) : UFn.Kept b { u with st := s } := h

omit [CxxData D] in
theorem UFn.NoTuple.next {u : UFn D W E S} (h : u.NoTuple) (s : S) : UFn.NoTuple { u with st := s } := h

/-- A plain function as dependency. -/
theorem evalN_polled (g : Glue) (hg : g.Retains) (hr : g.resultByRef = false) (u : UFn D W E S) (hu : u.ret = .val) (hk : u.Kept g.wrapParamByValue)
    (c : Option (Val D)) (env : Env D W S) :
    (∀ e, (u.run u.st [] env.w).1 = .error e → evalN g (.core (.wrapDep u) (.opt c) [.lazyValue (.data CxxData.zero) true]) env =
      (.thrown e, .core (.wrapDep { u with st := (u.run u.st [] env.w).2.1 }) (.opt c) [.lazyValue (.data CxxData.zero) true],
        ⟨(u.run u.st [] env.w).2.2, env.log ++ [.call .dep u.id [] u.st (u.run u.st [] env.w).2.1]⟩)) ∧
    (∀ v, (u.run u.st [] env.w).1 = .ok v → evalN g (.core (.wrapDep u) (.opt c) [.lazyValue (.data CxxData.zero) true]) env =
      (.ok ⟨v, optNe c v, true⟩, .core (.wrapDep { u with st := (u.run u.st [] env.w).2.1 }) (.opt (some v)) [.lazyValue (.data CxxData.zero) true],
        ⟨(u.run u.st [] env.w).2.2, env.log ++ [.call .dep u.id [] u.st (u.run u.st [] env.w).2.1] ++ optCmp c v⟩)) := by
  obtain ⟨g1, g2, g3, g4⟩ := hg
  have hd : evalDeps (E := E) g [Obj.lazyValue (.data CxxData.zero) true] env =
      (.ok [⟨.data CxxData.zero, true, true⟩], [Obj.lazyValue (.data CxxData.zero) true], env) := by
    simp [evalDeps, evalN, hr, Out.map]
  constructor
  · intro e he
    have hc : Fun.call g (.wrapDep u) [.data CxxData.zero] env = (.thrown e, .wrapDep { u with st := (u.run u.st [] env.w).2.1 },
        ⟨(u.run u.st [] env.w).2.2, env.log ++ [.call .dep u.id [] u.st (u.run u.st [] env.w).2.1]⟩) := by
      simp only [Fun.call, UFn.invoke, he, hk.keep]
    rw [evalN_core_ok g _ _ _ _ hd, coreTail_throw g _ _ (.opt c) _ env _ [.data CxxData.zero] e (by simp [any, anyS]) (by rfl) hc]
    simp [g1, g2]
  · intro v hv
    have hc : Fun.call g (.wrapDep u) [.data CxxData.zero] env = (.ok (RetTy.val.regularize v), .wrapDep { u with st := (u.run u.st [] env.w).2.1 },
        ⟨(u.run u.st [] env.w).2.2, env.log ++ [.call .dep u.id [] u.st (u.run u.st [] env.w).2.1]⟩) := by
      simp only [Fun.call, UFn.invoke, hv, hk.keep, hu]
    rw [evalN_core_ok g _ _ _ _ hd, coreTail_run g _ _ (.opt c) _ env _ [.data CxxData.zero] .val v (by simp [any, anyS]) (by rfl) hc (by simp [Cache.Fits])]
    cases c <;> simp [g1, g2, RetTy.regularize, Cache.assign, Cache.ne, optNe, optCmp, cmpEvents, Glue.coreLive, hr]

/-- A lazy function with a single dependency that was evaluated. -/
theorem evalN_single (g : Glue) (hg : g.Retains) (hr : g.resultByRef = false) (u : UFn D W E S) (hu : u.ret = .val) (hk : u.Kept g.regParamByValue)
    (c : Option (Val D)) (d d' : Obj D W E S) (env env1 : Env D W S) (x : Val D) (ch : Bool) (hx : x.asTuple = none)
    (hd : evalN g d env = (.ok ⟨x, ch, true⟩, d', env1)) :
    (ch = false → ∀ v, c = some v → evalN g (.unregularized (.unwrapped (.core (.regularized u) (.opt c) [d]))) env =
      (.ok ⟨v, false, true⟩, .unregularized (.unwrapped (.core (.regularized u) (.opt c) [d'])), env1)) ∧
    (ch = true ∨ c = none → ∀ e, (u.run u.st [x] env1.w).1 = .error e →
      evalN g (.unregularized (.unwrapped (.core (.regularized u) (.opt c) [d]))) env =
      (.thrown e, .unregularized (.unwrapped (.core (.regularized { u with st := (u.run u.st [x] env1.w).2.1 }) (.opt c) [d'])),
        ⟨(u.run u.st [x] env1.w).2.2, env1.log ++ [.call .fn u.id [x] u.st (u.run u.st [x] env1.w).2.1]⟩)) ∧
    (ch = true ∨ c = none → ∀ v, (u.run u.st [x] env1.w).1 = .ok v →
      evalN g (.unregularized (.unwrapped (.core (.regularized u) (.opt c) [d]))) env =
      (.ok ⟨v, optNe c v, true⟩, .unregularized (.unwrapped (.core (.regularized { u with st := (u.run u.st [x] env1.w).2.1 }) (.opt (some v)) [d'])),
        ⟨(u.run u.st [x] env1.w).2.2, env1.log ++ [.call .fn u.id [x] u.st (u.run u.st [x] env1.w).2.1] ++ optCmp c v⟩)) := by
  obtain ⟨g1, g2, g3, g4⟩ := hg
  have hds : evalDeps g [d] env = (.ok [⟨x, ch, true⟩], [d'], env1) := by simp [evalDeps, hd, Out.map]
  have hrv : readValues [(⟨x, ch, true⟩ : LazyRes D)] = some [x] := by
    rw [readValues_live (by simp) (by simpa using hx)]; rfl
  refine ⟨?_, ?_, ?_⟩
  · intro hch v hc
    subst hc
    rw [evalN_facade, evalN_core_ok g _ _ _ _ hds, coreTail_skip g _ _ _ _ v (by simp [any, anyS, hch]) rfl]
    simp [g1, g2, g3, g4, Out.map, LazyRes.through, Glue.coreLive, hr]
  · intro hch e he
    have hc : Fun.call g (.regularized u) [x] env1 = (.thrown e, .regularized { u with st := (u.run u.st [x] env1.w).2.1 },
        ⟨(u.run u.st [x] env1.w).2.2, env1.log ++ [.call .fn u.id [x] u.st (u.run u.st [x] env1.w).2.1]⟩) := by
      simp only [Fun.call, UFn.invoke, he, hk.keep]
    rw [evalN_facade, evalN_core_ok g _ _ _ _ hds, coreTail_throw g _ _ (.opt c) _ env1 _ [x] e
      (by rcases hch with h | h <;> simp [h, any, anyS, Cache.engaged]) hrv hc]
    simp [g1, g2, g3, g4, Out.map]
  · intro hch v hv
    have hc : Fun.call g (.regularized u) [x] env1 = (.ok (RetTy.val.regularize v), .regularized { u with st := (u.run u.st [x] env1.w).2.1 },
        ⟨(u.run u.st [x] env1.w).2.2, env1.log ++ [.call .fn u.id [x] u.st (u.run u.st [x] env1.w).2.1]⟩) := by
      simp only [Fun.call, UFn.invoke, hv, hk.keep, hu]
    rw [evalN_facade, evalN_core_ok g _ _ _ _ hds, coreTail_run g _ _ (.opt c) _ env1 _ [x] .val v
      (by rcases hch with h | h <;> simp [h, any, anyS, Cache.engaged]) hrv hc (by simp [Cache.Fits])]
    cases c <;> simp [g1, g2, g3, g4, Out.map, LazyRes.through, RetTy.regularize, Cache.assign, Cache.ne, optNe, optCmp, cmpEvents, Glue.coreLive, hr]

/-- A lazy function with a single dependency that threw. -/
theorem evalN_single_fail (g : Glue) (hg : g.Retains) (u : UFn D W E S) (c : Cache D) (d d' : Obj D W E S) (env env1 : Env D W S) (e : E)
    (hd : evalN g d env = (.thrown e, d', env1)) : evalN g (.unregularized (.unwrapped (.core (.regularized u) c [d]))) env =
      (.thrown e, .unregularized (.unwrapped (.core (.regularized u) c [d'])), env1) := by
  obtain ⟨g1, g2, g3, g4⟩ := hg
  have hds : evalDeps g [d] env = (.thrown e, [d'], env1) := by simp [evalDeps, hd, Out.map]
  rw [evalN_facade, evalN_core_fail g _ _ _ _ hds rfl]
  simp [g2, g3, g4, Out.map]

/-- `lazy(load_image, lazy(get_mouse_icon_filename, get_drawing_mode))`, with what is in the caches. -/
def Hand.iconObj (h : Hand D W E S) : Obj D W E S :=
  .unregularized (.unwrapped (.core (.regularized h.load) (.opt h.cacheIcon) [.unregularized (.unwrapped (.core (.regularized h.name) (.opt h.cacheFilename)
    [.core (.wrapDep h.mode) (.opt h.cacheMode) [.lazyValue (.data CxxData.zero) true]]))]))

/-- `lazy(render_mouse_cursor, get_mouse_pos, icon)`. -/
def Hand.cursorObj (h : Hand D W E S) (c : Cache D) : Obj D W E S :=
  .unregularized (.unwrapped (.core (.regularized h.render) c [.core (.wrapDep h.pos) (.opt h.cachePos) [.lazyValue (.data CxxData.zero) true], h.iconObj]))

/-- What the functions have to be like. -/
structure Hand.Fit (g : Glue) (h : Hand D W E S) : Prop where
  posRet : h.pos.ret = .val
  modeRet : h.mode.ret = .val
  nameRet : h.name.ret = .val
  loadRet : h.load.ret = .val
  posKept : h.pos.Kept g.wrapParamByValue
  modeKept : h.mode.Kept g.wrapParamByValue
  nameKept : h.name.Kept g.regParamByValue
  loadKept : h.load.Kept g.regParamByValue
  renderKept : h.render.Kept g.regParamByValue
  modeTuple : h.mode.NoTuple
  nameTuple : h.name.NoTuple

/-- Equal worlds, the same invocations; the same log if renderings cannot be compared. -/
def EnvSim (ret : RetTy) (env envh : Env D W S) : Prop :=
  env.w = envh.w ∧ invoked env.log = invoked envh.log ∧ (ret ≠ .val → env.log = envh.log)

omit [CxxData D] in
theorem invoked_append (a b : List (Ev D S)) : invoked (a ++ b) = invoked a ++ invoked b := by simp [invoked]

omit [CxxData D] in
theorem EnvSim.app {ret : RetTy} {env envh : Env D W S} (h : EnvSim ret env envh) (w : W) (l : List (Ev D S)) :
    EnvSim ret ⟨w, env.log ++ l⟩ ⟨w, envh.log ++ l⟩ :=
  ⟨rfl, by rw [invoked_append, invoked_append, h.2.1], fun hr => by rw [h.2.2 hr]⟩

/-- All of mode, file name and icon are known, or none of them. -/
def Hand.Even (h : Hand D W E S) : Prop :=
  (h.cacheMode = none ∧ h.cacheFilename = none ∧ h.cacheIcon = none) ∨ (h.cacheMode ≠ none ∧ h.cacheFilename ≠ none ∧ h.cacheIcon ≠ none)

theorem optNe_false (hs : SoundNe D) {c : Option (Val D)} {v : Val D} (h : optNe c v = false) : c = some v := by
  cases c with
  | none => simp [optNe] at h
  | some x => rw [Val.ne_sound hs x v h]

set_option linter.unusedSimpArgs false in
/-- Lines 15-30 and the evaluation of the icon. -/
theorem icon_sim (hs : SoundNe D) (g : Glue) (hg : g.Retains) (hr : g.resultByRef = false) (h : Hand D W E S) (hf : h.Fit g) (he : h.Even)
    (ret : RetTy) (env envh : Env D W S) (hsim : EnvSim ret env envh) :
    ∃ o oh o' h' env' envh', evalN g h.iconObj env = (o, o', env') ∧ h.updateMode envh = (oh, h', envh') ∧ EnvSim ret env' envh' ∧
      ((∃ e, o = .thrown e ∧ oh = .thrown e) ∨
        ∃ v ch, o = .ok ⟨v, ch, true⟩ ∧ oh = .ok () ∧ o' = h'.iconObj ∧ h'.cacheIcon = some v ∧ h'.cacheMode ≠ none ∧ h'.cacheFilename ≠ none ∧
          h'.Fit g ∧ h'.shouldRender = (h.shouldRender || ch) ∧ h'.cachePos = h.cachePos ∧ h'.pos = h.pos ∧ h'.render = h.render ∧
          (h.cacheIcon = none → ch = true)) := by
  obtain ⟨b, cp, ci, cn, cm, pos, mode, name, load, render⟩ := h
  obtain ⟨w, logh⟩ := envh
  obtain ⟨w', log⟩ := env
  obtain ⟨rfl, hinv, hlog⟩ := hsim
  have hsim : EnvSim ret (⟨w', log⟩ : Env D W S) ⟨w', logh⟩ := ⟨rfl, hinv, hlog⟩
  obtain ⟨hm1, hm2⟩ := evalN_polled g hg hr mode hf.modeRet hf.modeKept cm ⟨w', log⟩
  rw [Hand.iconObj]
  simp only at hm1 hm2
  rcases hrm : mode.run mode.st [] w' with ⟨rm, sm, wm⟩
  rw [hrm] at hm1 hm2
  cases rm with
  | error e =>
    have h1 := hm1 e rfl
    rw [evalN_single_fail g hg _ _ _ _ _ _ e (evalN_single_fail g hg _ _ _ _ _ _ e h1)]
    exact ⟨_, _, _, _, _, _, rfl, (by simp only [Hand.updateMode, Hand.updateFilename, Hand.updateIcon, UFn.invoke, if_true, if_false, Bool.false_eq_true, hrm]; rfl), hsim.app _ _, .inl ⟨e, rfl, rfl⟩⟩
  | ok vm =>
    have h1 := hm2 vm rfl
    have htm : vm.asTuple = none := hf.modeTuple mode.st [] w' vm (by rw [hrm])
    obtain ⟨hn0, hn1, hn2⟩ := evalN_single g hg hr name hf.nameRet hf.nameKept cn _ _ _ _ vm (optNe cm vm) htm h1
    have hsim1 := (hsim.app wm [.call .dep mode.id [] mode.st sm]).app wm (optCmp cm vm)
    have hfit1 : ∀ b cp ci cn cm, Hand.Fit g ⟨b, cp, ci, cn, cm, pos, ⟨mode.toFnCode, sm⟩, name, load, render⟩ := fun _ _ _ _ _ =>
      ⟨hf.1, hf.2, hf.3, hf.4, hf.5, hf.6, hf.7, hf.8, hf.9, hf.10, hf.11⟩
    cases hcm : optNe cm vm with
    | false =>
      have hcm' := optNe_false hs hcm
      subst hcm'
      rcases he with he | he
      · simp at he
      simp only at he
      obtain ⟨vn, hcn⟩ := Option.ne_none_iff_exists'.1 he.2.1
      obtain ⟨vi, hci⟩ := Option.ne_none_iff_exists'.1 he.2.2
      subst hcn hci
      have h2 := hn0 hcm vn rfl
      have h3 := evalN_facade g (.core (.regularized load) (.opt (some vi)) [.unregularized (.unwrapped (.core (.regularized name) (.opt (some vn))
          [.core (.wrapDep mode) (.opt (some vm)) [.lazyValue (.data CxxData.zero) true]]))]) ⟨w', log⟩
      rw [evalN_core_ok g _ _ _ _ (by simp only [evalDeps, h2, Out.map]; rfl), coreTail_skip g _ _ _ _ vi (by simp [any, anyS]) rfl] at h3
      simp only [hg.1, hg.2.1, hg.2.2.1, hg.2.2.2, Out.map, LazyRes.through, Glue.coreLive, hr, keep_false, Bool.or_self, Bool.false_and, Bool.and_true,
          Bool.not_false] at h3
      rw [h3]
      exact ⟨_, _, _, _, _, _, rfl, (by simp only [Hand.updateMode, Hand.updateFilename, Hand.updateIcon, UFn.invoke, if_true, if_false, Bool.false_eq_true, hrm, hcm]; rfl), hsim1, .inr ⟨vi, false, rfl, rfl, rfl, rfl, by simp, by simp, hfit1 _ _ _ _ _, by simp, rfl, rfl, rfl, by simp⟩⟩
    | true =>
      have hch : optNe cm vm = true ∨ cn = none := .inl hcm
      simp only at hn1 hn2
      rcases hrn : name.run name.st [vm] wm with ⟨rn, sn, wn⟩
      rw [hrn] at hn1 hn2
      cases rn with
      | error e =>
        rw [evalN_single_fail g hg _ _ _ _ _ _ e (hn1 hch e rfl)]
        exact ⟨_, _, _, _, _, _, rfl, (by simp only [Hand.updateMode, Hand.updateFilename, Hand.updateIcon, UFn.invoke, if_true, if_false, Bool.false_eq_true, hrm, hcm, hrn]; rfl), hsim1.app _ _, .inl ⟨e, rfl, rfl⟩⟩
      | ok vn =>
        have h2 := hn2 hch vn rfl
        have htn : vn.asTuple = none := hf.nameTuple name.st [vm] wm vn (by rw [hrn])
        have hsim2 := (hsim1.app wn [.call .fn name.id [vm] name.st sn]).app wn (optCmp cn vn)
        obtain ⟨hl0, hl1, hl2⟩ := evalN_single g hg hr load hf.loadRet hf.loadKept ci _ _ _ _ vn (optNe cn vn) htn h2
        have hfit2 : ∀ b cp ci cn cm, Hand.Fit g ⟨b, cp, ci, cn, cm, pos, ⟨mode.toFnCode, sm⟩, ⟨name.toFnCode, sn⟩, load, render⟩ := fun _ _ _ _ _ =>
          ⟨hf.1, hf.2, hf.3, hf.4, hf.5, hf.6, hf.7, hf.8, hf.9, hf.10, hf.11⟩
        cases hcn : optNe cn vn with
        | false =>
          have hcn' := optNe_false hs hcn
          subst hcn'
          rcases he with he | he
          · simp at he
          simp only at he
          obtain ⟨vi, hci⟩ := Option.ne_none_iff_exists'.1 he.2.2
          subst hci
          rw [hl0 hcn vi rfl]
          exact ⟨_, _, _, _, _, _, rfl, (by simp only [Hand.updateMode, Hand.updateFilename, Hand.updateIcon, UFn.invoke, if_true, if_false, Bool.false_eq_true, hrm, hcm, hrn, hcn]; rfl), hsim2, .inr ⟨vi, false, rfl, rfl, rfl, rfl, by simp, by simp, hfit2 _ _ _ _ _, by simp, rfl, rfl, rfl, by simp⟩⟩
        | true =>
          have hch : optNe cn vn = true ∨ ci = none := .inl hcn
          simp only at hl1 hl2
          rcases hrl : load.run load.st [vn] wn with ⟨rl, sl, wl⟩
          rw [hrl] at hl1 hl2
          cases rl with
          | error e =>
            rw [hl1 hch e rfl]
            exact ⟨_, _, _, _, _, _, rfl, (by simp only [Hand.updateMode, Hand.updateFilename, Hand.updateIcon, UFn.invoke, if_true, if_false, Bool.false_eq_true, hrm, hcm, hrn, hcn, hrl]; rfl), hsim2.app _ _, .inl ⟨e, rfl, rfl⟩⟩
          | ok vi =>
            rw [hl2 hch vi rfl]
            have hsim3 := (hsim2.app wl [.call .fn load.id [vn] load.st sl]).app wl (optCmp ci vi)
            have hfit3 : ∀ b cp ci cn cm, Hand.Fit g ⟨b, cp, ci, cn, cm, pos, ⟨mode.toFnCode, sm⟩, ⟨name.toFnCode, sn⟩, ⟨load.toFnCode, sl⟩, render⟩ :=
              fun _ _ _ _ _ => ⟨hf.1, hf.2, hf.3, hf.4, hf.5, hf.6, hf.7, hf.8, hf.9, hf.10, hf.11⟩
            cases hci : optNe ci vi with
            | false =>
              have hci' := optNe_false hs hci
              subst hci'
              exact ⟨_, _, _, _, _, _, rfl, (by simp only [Hand.updateMode, Hand.updateFilename, Hand.updateIcon, UFn.invoke, if_true, if_false, Bool.false_eq_true, hrm, hcm, hrn, hcn, hrl, hci]; rfl), hsim3, .inr ⟨vi, false, rfl, rfl, rfl, rfl, by simp, by simp, hfit3 _ _ _ _ _, by simp, rfl, rfl, rfl, by simp⟩⟩
            | true =>
              exact ⟨_, _, _, _, _, _, rfl, (by simp only [Hand.updateMode, Hand.updateFilename, Hand.updateIcon, UFn.invoke, if_true, if_false, Bool.false_eq_true, hrm, hcm, hrn, hcn, hrl, hci]; rfl), hsim3, .inr ⟨vi, true, rfl, rfl, rfl, rfl, by simp, by simp, hfit3 _ _ _ _ _, by simp, rfl, rfl, rfl, by simp⟩⟩

/-- Before an iteration. -/
structure Hand.Ready (g : Glue) (h : Hand D W E S) (c : Cache D) : Prop where
  fit : h.Fit g
  even : h.Even
  flag : h.shouldRender = false
  fits : c.Fits h.render.ret
  drawn : c.val? = none → h.cacheIcon = none
  placed : h.cachePos = none → h.cacheIcon = none

/-- The dependencies of the cursor. -/
theorem cursor_deps (g : Glue) (p i p' i' : Obj D W E S) (env env1 env2 : Env D W S) (r : LazyRes D) (hp : evalN g p env = (.ok r, p', env1))
    (o : Out E (LazyRes D)) (hi : evalN g i env1 = (o, i', env2)) : evalDeps g [p, i] env = (o.map fun q => [r, q], [p', i'], env2) := by
  simp only [evalDeps, hp, hi]
  cases o <;> simp [Out.map]

theorem call0_fail (g : Glue) (u : UFn D W E S) (c : Cache D) (ds ds' : List (Obj D W E S)) (env env1 : Env D W S) (e : E)
    (hd : evalDeps g ds env = (.thrown e, ds', env1)) : ∃ o', call0 g (.unregularized (.unwrapped (.core (.regularized u) c ds))) env = (.thrown e, o', env1) := by
  rw [call0_facade, evalN_core_fail g _ _ _ _ hd rfl]
  exact ⟨_, rfl⟩

theorem cursor_sim (g : Glue) (hg : g.Retains) (hr : g.resultByRef = false) (u : UFn D W E S) (hk : u.Kept g.regParamByValue) (c : Cache D)
    (hf : c.Fits u.ret) (ds ds' : List (Obj D W E S)) (env env1 : Env D W S) (vp vi : Val D) (cp ci : Bool)
    (hd : evalDeps g ds env = (.ok [⟨vp, cp, true⟩, ⟨vi, ci, true⟩], ds', env1)) :
    ((cp || ci) = false → ∀ v, c.val? = some v → ∃ x, call0 g (.unregularized (.unwrapped (.core (.regularized u) c ds))) env =
      (.ok x, .unregularized (.unwrapped (.core (.regularized u) c ds')), env1)) ∧
    ((cp || ci) = true → ∀ e, (u.run u.st [vp, vi] env1.w).1 = .error e → ∃ o', call0 g (.unregularized (.unwrapped (.core (.regularized u) c ds))) env =
      (.thrown e, o', ⟨(u.run u.st [vp, vi] env1.w).2.2, env1.log ++ [.call .fn u.id [vp, vi] u.st (u.run u.st [vp, vi] env1.w).2.1]⟩)) ∧
    ((cp || ci) = true → ∀ v, (u.run u.st [vp, vi] env1.w).1 = .ok v → ∃ x c' l, call0 g (.unregularized (.unwrapped (.core (.regularized u) c ds))) env =
      (.ok x, .unregularized (.unwrapped (.core (.regularized { u with st := (u.run u.st [vp, vi] env1.w).2.1 }) c' ds')),
        ⟨(u.run u.st [vp, vi] env1.w).2.2, env1.log ++ [.call .fn u.id [vp, vi] u.st (u.run u.st [vp, vi] env1.w).2.1] ++ l⟩) ∧
      c'.Fits u.ret ∧ c'.val? ≠ none ∧ invoked l = [] ∧ (u.ret ≠ .val → l = [])) := by
  obtain ⟨g1, g2, g3, g4⟩ := hg
  have hrv : readValues [(⟨vp, cp, true⟩ : LazyRes D), ⟨vi, ci, true⟩] = some [vp, vi] := by
    rw [readValues_live (by simp) (by simp)]; rfl
  have hlive : g.coreLive c = true := by cases c <;> simp [Glue.coreLive, hr]
  refine ⟨?_, ?_, ?_⟩
  · intro hch v hc
    rw [call0_facade, evalN_core_ok g _ _ _ _ hd, coreTail_skip g _ _ _ _ v (by simpa [any_eq] using hch) hc]
    simp [g1, g2, g3, g4, hr, hlive]
  · intro hch e he
    have hc : Fun.call g (.regularized u) [vp, vi] env1 = (.thrown e, .regularized { u with st := (u.run u.st [vp, vi] env1.w).2.1 },
        ⟨(u.run u.st [vp, vi] env1.w).2.2, env1.log ++ [.call .fn u.id [vp, vi] u.st (u.run u.st [vp, vi] env1.w).2.1]⟩) := by
      simp only [Fun.call, UFn.invoke, he, hk.keep]
    rw [call0_facade, evalN_core_ok g _ _ _ _ hd, coreTail_throw g _ _ c _ env1 _ [vp, vi] e (by simp [any_eq]; simp at hch; simp [hch]) hrv hc]
    exact ⟨_, rfl⟩
  · intro hch v hv
    have hc : Fun.call g (.regularized u) [vp, vi] env1 = (.ok (u.ret.regularize v), .regularized { u with st := (u.run u.st [vp, vi] env1.w).2.1 },
        ⟨(u.run u.st [vp, vi] env1.w).2.2, env1.log ++ [.call .fn u.id [vp, vi] u.st (u.run u.st [vp, vi] env1.w).2.1]⟩) := by
      simp only [Fun.call, UFn.invoke, hv, hk.keep]
    rw [call0_facade, evalN_core_ok g _ _ _ _ hd, coreTail_run g _ _ c _ env1 _ [vp, vi] u.ret v (by simp [any_eq]; simp at hch; simp [hch]) hrv hc hf]
    refine ⟨_, _, cmpEvents c (u.ret.regularize v), by simp only [hlive, hr, g1, g2, g3, g4, keep_false, Bool.or_self, Bool.false_and, Bool.not_false, Bool.and_true, if_true]; rfl, Cache.assign_fits _ hf, ?_, ?_, ?_⟩
    · rw [Cache.assign_val? hf]; simp
    · rcases c with (_ | _) | _ <;> simp [cmpEvents, invoked]
    · intro hne
      rcases c with o | _
      · simp only [Cache.Fits] at hf; exact (hne hf).elim
      · rfl

/-- One iteration of both programs. -/
theorem frame_sim (hs : SoundNe D) (g : Glue) (hg : g.Retains) (hr : g.resultByRef = false) (h : Hand D W E S) (c : Cache D) (hh : h.Ready g c)
    (env envh : Env D W S) (hsim : EnvSim h.render.ret env envh) :
    ∃ o oh o' h' env' envh', call0 g (h.cursorObj c) env = (o, o', env') ∧ h.frame true envh = (oh, h', envh') ∧ EnvSim h.render.ret env' envh' ∧
      ((∃ e, o = .thrown e ∧ oh = .thrown e) ∨ ∃ x c', o = .ok x ∧ oh = .ok () ∧ o' = h'.cursorObj c' ∧ h'.Ready g c' ∧ h'.render.ret = h.render.ret) := by
  obtain ⟨hf, he, hflag, hfits, hdrawn, hplaced⟩ := hh
  obtain ⟨b, cp, ci, cn, cm, pos, mode, name, load, render⟩ := h
  simp only at hflag hfits hdrawn hplaced hsim
  subst hflag
  obtain ⟨w, logh⟩ := envh
  obtain ⟨w', log⟩ := env
  obtain ⟨rfl, hinv, hlog⟩ := hsim
  have hsim : EnvSim render.ret (⟨w', log⟩ : Env D W S) ⟨w', logh⟩ := ⟨rfl, hinv, hlog⟩
  obtain ⟨hp1, hp2⟩ := evalN_polled g hg hr pos hf.posRet hf.posKept cp ⟨w', log⟩
  simp only at hp1 hp2
  rcases hrp : pos.run pos.st [] w' with ⟨rp, sp, wp⟩
  rw [hrp] at hp1 hp2
  cases rp with
  | error e =>
    obtain ⟨o', h1⟩ := call0_fail g render c [.core (.wrapDep pos) (.opt cp) [.lazyValue (.data CxxData.zero) true],
      Hand.iconObj ⟨false, cp, ci, cn, cm, pos, mode, name, load, render⟩] _ ⟨w', log⟩ _ e (by simp only [evalDeps, hp1 e rfl, Out.map]; rfl)
    exact ⟨_, _, _, _, _, _, h1, by simp only [Hand.frame, Hand.updatePos, UFn.invoke, hrp, HandRes.andThen]; rfl, hsim.app _ _, .inl ⟨e, rfl, rfl⟩⟩
  | ok vp =>
    have h1 := hp2 vp rfl
    have hsim1 := (hsim.app wp [.call .dep pos.id [] pos.st sp]).app wp (optCmp cp vp)
    have hpos : Hand.updatePos (⟨false, cp, ci, cn, cm, pos, mode, name, load, render⟩ : Hand D W E S) ⟨w', logh⟩ =
        (.ok (), ⟨optNe cp vp, some vp, ci, cn, cm, ⟨pos.toFnCode, sp⟩, mode, name, load, render⟩,
          ⟨wp, logh ++ [.call .dep pos.id [] pos.st sp] ++ optCmp cp vp⟩) := by
      simp only [Hand.updatePos, UFn.invoke, hrp]
      cases hcp : optNe cp vp with
      | true => rfl
      | false => rw [optNe_false hs hcp]; rfl
    obtain ⟨o, oh, o', h', env', envh', hi1, hi2, hi3, hi4⟩ := icon_sim hs g hg hr
      (⟨optNe cp vp, some vp, ci, cn, cm, ⟨pos.toFnCode, sp⟩, mode, name, load, render⟩ : Hand D W E S)
      ⟨hf.1, hf.2, hf.3, hf.4, hf.5, hf.6, hf.7, hf.8, hf.9, hf.10, hf.11⟩ he render.ret _ _ hsim1
    have hds := cursor_deps g _ _ _ _ _ _ _ _ h1 _ hi1
    rcases hi4 with ⟨e, rfl, rfl⟩ | ⟨vi, chi, rfl, rfl, rfl, hicon, hm, hn, hfit, hfl, hcp', hpos', hrend, hchi⟩
    · obtain ⟨o', h2⟩ := call0_fail g render c _ _ _ _ e hds
      exact ⟨_, _, _, _, _, _, h2, by simp only [Hand.frame, hpos, HandRes.andThen, hi2]; rfl, hi3, .inl ⟨e, rfl, rfl⟩⟩
    · obtain ⟨b', cp', ci', cn', cm', pos', mode', name', load', render'⟩ := h'
      simp only at hicon hm hn hfl hcp' hpos' hrend
      subst hicon hcp' hpos' hrend
      obtain ⟨hc0, hc1, hc2⟩ := cursor_sim g hg hr render' hf.renderKept c hfits _ _ _ _ vp vi _ _ hds
      cases hch : (optNe cp vp || chi) with
      | false =>
        rw [hch] at hfl
        subst hfl
        have hci : ci ≠ none := by intro h0; have := hchi h0; simp [this] at hch
        obtain ⟨v, hv⟩ := Option.ne_none_iff_exists'.1 (fun h0 => hci (hdrawn h0))
        obtain ⟨x, hx⟩ := hc0 hch v hv
        refine ⟨_, _, _, _, _, _, hx, by simp only [Hand.frame, hpos, HandRes.andThen, hi2, Hand.draw]; rfl, hi3,
          .inr ⟨x, c, rfl, rfl, rfl, ⟨hfit, .inr ⟨hm, hn, by simp⟩, rfl, hfits, by simp [hv], by simp⟩, rfl⟩⟩
      | true =>
        rw [hch] at hfl
        subst hfl
        obtain ⟨w2, log2⟩ := env'
        obtain ⟨w2', logh2⟩ := envh'
        obtain ⟨rfl, hinv2, hlog2⟩ := hi3
        have hsim2 : EnvSim render'.ret (⟨w2, log2⟩ : Env D W S) ⟨w2, logh2⟩ := ⟨rfl, hinv2, hlog2⟩
        simp only at hc1 hc2
        rcases hrr : render'.run render'.st [vp, vi] w2 with ⟨rr, sr, wr⟩
        rw [hrr] at hc1 hc2
        cases rr with
        | error e =>
          obtain ⟨o', ho'⟩ := hc1 hch e rfl
          exact ⟨_, _, _, _, _, _, ho', by simp only [Hand.frame, hpos, HandRes.andThen, hi2, Hand.draw, UFn.invoke, hrr, if_true]; rfl, hsim2.app _ _,
            .inl ⟨e, rfl, rfl⟩⟩
        | ok vr =>
          obtain ⟨x, c', l, hx, hcf, hcv, hl1, hl2⟩ := hc2 hch vr rfl
          have hframe : Hand.frame true (⟨false, cp, ci, cn, cm, pos, mode, name, load, render'⟩ : Hand D W E S) ⟨w', logh⟩ =
              (.ok (), ⟨false, some vp, some vi, cn', cm', ⟨pos.toFnCode, sp⟩, mode', name', load', ⟨render'.toFnCode, sr⟩⟩,
                ⟨wr, logh2 ++ [.call .fn render'.id [vp, vi] render'.st sr]⟩) := by
            simp only [Hand.frame, hpos, HandRes.andThen, hi2, Hand.draw, UFn.invoke, hrr, if_true, Bool.not_true]
          refine ⟨_, _, _, _, _, _, hx, hframe, ?_,
            .inr ⟨x, c', rfl, rfl, rfl, ⟨⟨hfit.1, hfit.2, hfit.3, hfit.4, hfit.5, hfit.6, hfit.7, hfit.8, hfit.9, hfit.10, hfit.11⟩, .inr ⟨hm, hn, by simp⟩,
              rfl, hcf, fun h0 => (hcv h0).elim, by simp⟩, rfl⟩⟩
          have := hsim2.app wr [.call .fn render'.id [vp, vi] render'.st sr]
          exact ⟨rfl, by rw [invoked_append, hl1, List.append_nil]; exact this.2.1, fun hne => by rw [hl2 hne, List.append_nil]; exact this.2.2 hne⟩

/-- Both loops. -/
theorem loop_sim (hs : SoundNe D) (g : Glue) (hg : g.Retains) (hr : g.resultByRef = false) (x : Nat) (ret : RetTy) (l : List (Option (W → W))) :
    ∀ (h : Hand D W E S) (c : Cache D) (s : State D W E S) (envh : Env D W S), h.Ready g c → h.render.ret = ret → s.vars[x]? = some (h.cursorObj c) →
      EnvSim ret s.env envh →
      let a := whileTrue (fun s => ((step g s (.call x)).1.discard, (step g s (.call x)).2)) (fun f s => { s with env := s.env.poke f }) s l
      let b := whileTrue (fun s => Hand.frame true s.1 s.2) (fun f s => (s.1, s.2.poke f)) (h, envh) l
      a.1 = b.1 ∧ EnvSim ret a.2.env b.2.2 := by
  induction l with
  | nil => intro h c s envh _ _ _ hsim; exact ⟨rfl, hsim⟩
  | cons f l ih =>
    intro h c s envh hh hret hx hsim
    cases f with
    | some f =>
      simp only [whileTrue]
      exact ih h c _ _ hh hret hx ⟨by simp [Env.poke, hsim.1], by simpa [Env.poke] using hsim.2.1, by simpa [Env.poke] using hsim.2.2⟩
    | none =>
      subst hret
      obtain ⟨o, oh, o', h', env', envh', h1, h2, h3, h4⟩ := frame_sim hs g hg hr h c hh s.env envh hsim
      have hst := step_call g s x _ hx
      rw [h1] at hst
      simp only [whileTrue, hst, h2]
      rcases h4 with ⟨e, rfl, rfl⟩ | ⟨v, c', rfl, rfl, rfl, h5, h6⟩
      · exact ⟨rfl, h3⟩
      · exact ih h' c' _ _ h5 h6 (set_get _ _ _ _ hx) h3

/-- The definitions. -/
theorem direct_vars (g : Glue) (mode name load render pos : UFn D W E S) (hm : mode.ret = .val) (hn : name.ret = .val) (hl : load.ret = .val)
    (hp : pos.ret = .val) (w : W) :
    let s := (run g (State.init w) [.mk name [.function mode], .mk load [.var 0], .mk render [.function pos, .var 1]]).2
    s.vars[2]? = some ((Hand.init mode name load render pos).cursorObj (Cache.empty render.ret)) ∧ s.env = ⟨w, []⟩ := by
  simp [run, step, resolveAll, ArgRef.resolve, State.init, pigroLazy, ensureAll, ensureLazy, DepArg.caps, Obj.caps, ensureSelect, ensureViable, moreConstrained,
    hm, hn, hl, hp, detailLazy, Cache.empty, Fun.ret, Hand.cursorObj, Hand.iconObj, Hand.init]

omit [CxxData D] in
theorem drawn_append (id : Nat) (a b : List (Ev D S)) : drawn id (a ++ b) = drawn id a + drawn id b := by simp [drawn]

omit [CxxData D] in
theorem drawn_optCmp (id : Nat) (c : Option (Val D)) (v : Val D) : drawn id (optCmp c v : List (Ev D S)) = 0 := by cases c <;> rfl

omit [CxxData D] in
theorem drawn_invoked (id : Nat) (l : List (Ev D S)) : drawn id (invoked l) = drawn id l := by
  simp only [drawn, invoked, List.countP_filter]
  congr 1
  funext e
  cases e <;> simp

/-- What a part of an iteration leaves alone: it draws nothing; the flag may be set but not taken back. -/
def Hand.Quiet (id : Nat) (h : Hand D W E S) (env : Env D W S) (r : HandRes D W E S) : Prop :=
  drawn id r.2.2.log = drawn id env.log ∧ (h.shouldRender = true → r.2.1.shouldRender = true) ∧ r.2.1.render.toFnCode = h.render.toFnCode ∧
    r.2.1.load.id = h.load.id ∧ r.2.1.name.id = h.name.id ∧ (h.cachePos ≠ none → r.2.1.cachePos ≠ none)

theorem updatePos_quiet (id : Nat) (h : Hand D W E S) (env : Env D W S) : h.Quiet id env (h.updatePos env) ∧
    ((h.updatePos env).1 = .ok () → (h.updatePos env).2.1.cachePos ≠ none ∧ (h.cachePos = none → (h.updatePos env).2.1.shouldRender = true)) := by
  simp only [Hand.updatePos, UFn.invoke]
  rcases h.pos.run h.pos.st [] env.w with ⟨e | v, s, w⟩
  · simp [Hand.Quiet, drawn_append]
    rfl
  · simp only
    cases hc : optNe h.cachePos v with
    | true =>
      simp [-List.append_assoc, Hand.Quiet, drawn_append, drawn_optCmp]
      rfl
    | false =>
      cases hp : h.cachePos with
      | none => rw [hp] at hc; simp [optNe] at hc
      | some x =>
        simp [-List.append_assoc, Hand.Quiet, drawn_append, drawn_optCmp, hp]
        rfl

theorem updateIcon_quiet (id : Nat) (v : Val D) (h : Hand D W E S) (env : Env D W S) (hid : h.load.id ≠ id) : h.Quiet id env (h.updateIcon v env) := by
  simp only [Hand.updateIcon, UFn.invoke]
  have h0 : ∀ a b, drawn id [(.call .fn h.load.id [v] a b : Ev D S)] = 0 := by intro a b; simp [drawn, hid]
  rcases h.load.run h.load.st [v] env.w with ⟨e | v', s, w⟩
  · simp [Hand.Quiet, drawn_append, h0]
  · simp only
    cases hc : optNe h.cacheIcon v' <;> simp [-List.append_assoc, Hand.Quiet, drawn_append, drawn_optCmp, h0]

theorem updateFilename_quiet (id : Nat) (v : Val D) (h : Hand D W E S) (env : Env D W S) (hid : h.load.id ≠ id) (hid' : h.name.id ≠ id) :
    h.Quiet id env (h.updateFilename v env) := by
  simp only [Hand.updateFilename, UFn.invoke]
  have h0 : ∀ a b, drawn id [(.call .fn h.name.id [v] a b : Ev D S)] = 0 := by intro a b; simp [drawn, hid']
  rcases h.name.run h.name.st [v] env.w with ⟨e | v', s, w⟩
  · simp [Hand.Quiet, drawn_append, h0]
  · simp only
    cases hc : optNe h.cacheFilename v' with
    | false => simp [-List.append_assoc, Hand.Quiet, drawn_append, drawn_optCmp, h0]
    | true =>
      have h1 := updateIcon_quiet id v' { h with name := { h.name with st := s }, cacheFilename := some v' }
        ⟨w, env.log ++ [.call .fn h.name.id [v] h.name.st s] ++ optCmp h.cacheFilename v'⟩ hid
      simpa [-List.append_assoc, Hand.Quiet, drawn_append, drawn_optCmp, h0] using h1

theorem updateMode_quiet (id : Nat) (h : Hand D W E S) (env : Env D W S) (hid : h.load.id ≠ id) (hid' : h.name.id ≠ id) :
    h.Quiet id env (h.updateMode env) := by
  simp only [Hand.updateMode, UFn.invoke]
  have h0 : ∀ a b, drawn id [(.call .dep h.mode.id [] a b : Ev D S)] = 0 := by intro a b; rfl
  rcases h.mode.run h.mode.st [] env.w with ⟨e | v', s, w⟩
  · simp [Hand.Quiet, drawn_append, h0]
  · simp only
    cases hc : optNe h.cacheMode v' with
    | false => simp [-List.append_assoc, Hand.Quiet, drawn_append, drawn_optCmp, h0]
    | true =>
      have h1 := updateFilename_quiet id v' { h with mode := { h.mode with st := s }, cacheMode := some v' }
        ⟨w, env.log ++ [.call .dep h.mode.id [] h.mode.st s] ++ optCmp h.cacheMode v'⟩ hid hid'
      simpa [-List.append_assoc, Hand.Quiet, drawn_append, drawn_optCmp, h0] using h1

/-- An iteration of the program in the picture draws once. -/
theorem frame_draws (h : Hand D W E S) (env : Env D W S) (hid : h.load.id ≠ h.render.id) (hid' : h.name.id ≠ h.render.id)
    (hf : h.shouldRender = true ∨ h.cachePos = none) (hok : (h.frame false env).1 = .ok ()) :
    let r := h.frame false env
    drawn h.render.id r.2.2.log = drawn h.render.id env.log + 1 ∧ r.2.1.shouldRender = true ∧ r.2.1.render.id = h.render.id ∧
      r.2.1.load.id = h.load.id ∧ r.2.1.name.id = h.name.id := by
  obtain ⟨⟨p1, p2, p3, p4, p5, p6⟩, p7⟩ := updatePos_quiet h.render.id h env
  simp only [Hand.frame] at hok ⊢
  rcases hp : h.updatePos env with ⟨o1, h1, env1⟩
  rw [hp] at p1 p2 p3 p4 p5 p6 p7
  rw [hp] at hok
  simp only at p1 p2 p3 p4 p5 p6 p7
  cases o1 with
  | ok _ =>
    obtain ⟨p7, p8⟩ := p7 rfl
    have hfl : h1.shouldRender = true := by
      rcases hf with hf | hf
      · exact p2 hf
      · exact p8 hf
    obtain ⟨m1, m2, m3, m4, m5, m6⟩ := updateMode_quiet h.render.id h1 env1 (by rw [p4]; exact hid) (by rw [p5]; exact hid')
    simp only [HandRes.andThen] at hok ⊢
    rcases hm : h1.updateMode env1 with ⟨o2, h2, env2⟩
    rw [hm] at m1 m2 m3 m4 m5 m6 hok
    simp only at m1 m2 m3 m4 m5 m6
    cases o2 with
    | ok _ =>
      simp only [Hand.draw, m2 hfl, if_true] at hok ⊢
      rcases hcp : h2.cachePos with _ | vp
      · exact (m6 p7 hcp).elim
      rcases hci : h2.cacheIcon with _ | vi
      · simp [hcp, hci] at hok
      simp only [hcp, hci, UFn.invoke] at hok ⊢
      rcases hrr : h2.render.run h2.render.st [vp, vi] env2.w with ⟨e | v, s, w⟩
      · simp [hrr] at hok
      · have hr : h2.render.id = h.render.id := by rw [m3, p3]
        have h1 : drawn h.render.id [(.call .fn h.render.id [vp, vi] h2.render.st s : Ev D S)] = 1 := by simp [drawn]
        simp [drawn_append, m1, p1, hr, m4, p4, m5, p5, h1]
    | _ => simp at hok
  | _ => simp [HandRes.andThen] at hok

/-- The loop in the picture. -/
theorem loop_draws (l : List (Option (W → W))) : ∀ (h : Hand D W E S) (env : Env D W S), h.load.id ≠ h.render.id → h.name.id ≠ h.render.id →
    (h.shouldRender = true ∨ h.cachePos = none) →
    let b := whileTrue (fun s => Hand.frame false s.1 s.2) (fun f s => (s.1, s.2.poke f)) (h, env) l
    b.1 = .ok () → drawn h.render.id b.2.2.log = drawn h.render.id env.log + l.countP (·.isNone) := by
  induction l with
  | nil => intro h env _ _ _; simp [whileTrue]
  | cons f l ih =>
    intro h env hid hid' hf
    cases f with
    | some f =>
      simp only [whileTrue]
      intro hb
      rw [ih h (env.poke f) hid hid' hf hb]
      simp [Env.poke]
    | none =>
      have hd := frame_draws h env hid hid' hf
      simp only [whileTrue]
      rcases hfr : h.frame false env with ⟨o, h', env'⟩
      rw [hfr] at hd
      cases o with
      | ok _ =>
        obtain ⟨d1, d2, d3, d4, d5⟩ := hd rfl
        simp only at d1 d2 d3 d4 d5
        simp only
        intro hb
        have := ih h' env' (by rw [d4, d3]; exact hid) (by rw [d5, d3]; exact hid') (.inl d2) hb
        rw [d3] at this
        rw [this, d1]
        simp
        omega
      | _ => simp

/-- Nothing to do in an iteration. -/
theorem steady_frame (hrefl : ReflNe D) (id : Nat) (vp vm : Val D) (h : Hand D W E S) (env : Env D W S) (hp : ∀ s w, (h.pos.run s [] w).1 = .ok vp)
    (hm : ∀ s w, (h.mode.run s [] w).1 = .ok vm) (h1 : h.cachePos = some vp) (h2 : h.cacheMode = some vm) (h3 : h.shouldRender = false) :
    ∃ h' env', h.frame true env = (.ok (), h', env') ∧ h'.pos.toFnCode = h.pos.toFnCode ∧ h'.mode.toFnCode = h.mode.toFnCode ∧ h'.cachePos = some vp ∧
      h'.cacheMode = some vm ∧ h'.shouldRender = false ∧ drawn id env'.log = drawn id env.log := by
  obtain ⟨b, cp, ci, cn, cm, pos, mode, name, load, render⟩ := h
  simp only at hp hm h1 h2 h3
  subst h1 h2 h3
  have hp' := hp pos.st env.w
  rcases hrp : pos.run pos.st [] env.w with ⟨rp, sp, wp⟩
  rw [hrp] at hp'
  simp only at hp'
  subst hp'
  have hm' := hm mode.st wp
  rcases hrm : mode.run mode.st [] wp with ⟨rm, sm, wm⟩
  rw [hrm] at hm'
  simp only at hm'
  subst hm'
  have hd : ∀ (i : Nat) (a b : S), drawn id [(.call .dep i [] a b : Ev D S)] = 0 := fun _ _ _ => rfl
  refine ⟨⟨false, some vp, ci, cn, some vm, ⟨pos.toFnCode, sp⟩, ⟨mode.toFnCode, sm⟩, name, load, render⟩, _, by
    simp only [Hand.frame, Hand.updatePos, Hand.updateMode, UFn.invoke, hrp, hrm, optNe, Val.ne_refl hrefl, HandRes.andThen, Hand.draw, Bool.false_eq_true, if_false]
    rfl, rfl, rfl, rfl, rfl, rfl, ?_⟩
  simp [-List.append_assoc, drawn_append, drawn_optCmp, hd]

theorem steady_loop (hrefl : ReflNe D) (id : Nat) (vp vm : Val D) (l : List (Option (W → W))) : ∀ (h : Hand D W E S) (env : Env D W S),
    (∀ s w, (h.pos.run s [] w).1 = .ok vp) → (∀ s w, (h.mode.run s [] w).1 = .ok vm) → h.cachePos = some vp → h.cacheMode = some vm →
    h.shouldRender = false →
    let b := whileTrue (fun s => Hand.frame true s.1 s.2) (fun f s => (s.1, s.2.poke f)) (h, env) l
    b.1 = .ok () ∧ drawn id b.2.2.log = drawn id env.log := by
  induction l with
  | nil => intros; exact ⟨rfl, rfl⟩
  | cons f l ih =>
    intro h env hp hm h1 h2 h3
    cases f with
    | some f => exact ih h (env.poke f) hp hm h1 h2 h3
    | none =>
      obtain ⟨h', env', e1, e2, e3, e4, e5, e6, e7⟩ := steady_frame hrefl id vp vm h env hp hm h1 h2 h3
      simp only [whileTrue, e1]
      rw [← e7]
      exact ih h' env' (by rw [e2]; exact hp) (by rw [e3]; exact hm) e4 e5 e6

/-- The first iteration, with functions that do not throw. -/
theorem first_frame (reset : Bool) (vp vm : Val D) (mode name load render pos : UFn D W E S) (env : Env D W S) (hp : ∀ s w, (pos.run s [] w).1 = .ok vp)
    (hm : ∀ s w, (mode.run s [] w).1 = .ok vm) (hn : ∀ s x w, ∃ v, (name.run s x w).1 = .ok v) (hl : ∀ s x w, ∃ v, (load.run s x w).1 = .ok v)
    (hr : ∀ s x w, ∃ v, (render.run s x w).1 = .ok v) (hid : load.id ≠ render.id) (hid' : name.id ≠ render.id) :
    ∃ h' env', (Hand.init mode name load render pos).frame reset env = (.ok (), h', env') ∧ h'.pos.toFnCode = pos.toFnCode ∧ h'.mode.toFnCode = mode.toFnCode ∧
      h'.cachePos = some vp ∧ h'.cacheMode = some vm ∧ h'.shouldRender = !reset ∧ drawn render.id env'.log = drawn render.id env.log + 1 := by
  have hp' := hp pos.st env.w
  rcases hrp : pos.run pos.st [] env.w with ⟨rp, sp, wp⟩
  rw [hrp] at hp'
  simp only at hp'
  subst hp'
  have hm' := hm mode.st wp
  rcases hrm : mode.run mode.st [] wp with ⟨rm, sm, wm⟩
  rw [hrm] at hm'
  simp only at hm'
  subst hm'
  obtain ⟨vn, hn'⟩ := hn name.st [vm] wm
  rcases hrn : name.run name.st [vm] wm with ⟨rn, sn, wn⟩
  rw [hrn] at hn'
  simp only at hn'
  subst hn'
  obtain ⟨vi, hl'⟩ := hl load.st [vn] wn
  rcases hrl : load.run load.st [vn] wn with ⟨rl, sl, wl⟩
  rw [hrl] at hl'
  simp only at hl'
  subst hl'
  obtain ⟨vr, hr'⟩ := hr render.st [vp, vi] wl
  rcases hrr : render.run render.st [vp, vi] wl with ⟨rr, sr, wr⟩
  rw [hrr] at hr'
  simp only at hr'
  subst hr'
  refine ⟨⟨!reset, some vp, some vi, some vn, some vm, ⟨pos.toFnCode, sp⟩, ⟨mode.toFnCode, sm⟩, ⟨name.toFnCode, sn⟩, ⟨load.toFnCode, sl⟩, ⟨render.toFnCode, sr⟩⟩, _, by
    simp only [Hand.init, Hand.frame, Hand.updatePos, Hand.updateMode, Hand.updateFilename, Hand.updateIcon, UFn.invoke, hrp, hrm, hrn, hrl, hrr, optNe,
      HandRes.andThen, Hand.draw, if_true]
    rfl, rfl, rfl, rfl, rfl, rfl, ?_⟩
  simp [drawn, optCmp, hid, hid']

end Pigro
