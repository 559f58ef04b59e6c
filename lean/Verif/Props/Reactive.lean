import Verif.Proofs.Constant
import Verif.Props.LazyD
/-!
# C69: the program of "Reactivity all the way down"

docs/walkthrough/reactivity_all_the_way_down.md:12-20. The loop is to render, again and again, the mouse cursor at the current position with the icon of
the current drawing mode.
-/
namespace Pigro
open Demo
variable {D W E S O : Type} [CxxData D]

/-- The documented definitions: `mode = lazy(get_drawing_mode)`, `filename = lazy(get_mouse_icon_filename, mode)`, `icon = lazy(load_image, filename)`,
`mouse_cursor = lazy(render_mouse_cursor, get_mouse_pos, icon)`. -/
def documented (mode name load render pos : UFn D W E S) : List (Op D W E S) :=
  [.mk mode [], .mk name [.var 0], .mk load [.var 1], .mk render [.function pos, .var 2]]

/-- The same with `filename = lazy(get_mouse_icon_filename, get_drawing_mode)`. -/
def direct (mode name load render pos : UFn D W E S) : List (Op D W E S) :=
  [.mk name [.function mode], .mk load [.var 0], .mk render [.function pos, .var 1]]

/-- **C69, frozen values**: a lazy function that has no plain function among its direct and indirect dependencies is frozen by its first call that
returns: whatever the program does afterwards, and whatever the wrapped functions read, later calls return the same value, invoke nothing and change
nothing. -/
theorem C69_frozen (g : Glue) (hg : g.Retains) (w : W) (ops : List (Op D W E S)) (i : Nat) (t : Tree D W E S) (ht : (runTrees [] ops)[i]? = some t)
    (hno : t.leafIds = []) (v : Option (Val D)) (hv : (step g (after g w ops) (.call i)).1 = .ret (.ok v)) (rest : List (Op D W E S)) :
    step g (after g w (ops ++ .call i :: rest)) (.call i) = (.ret (.ok v), after g w (ops ++ .call i :: rest)) := by
  obtain ⟨o, c, us, ho, rfl, hsh⟩ := vars_of_tree g w ops i t ht
  have hst := step_call g (after g w ops) i o ho
  have hlz := hsh
  simp only [Shape] at hlz
  obtain ⟨u, cache, ds, hu, hf, hds, ho'⟩ := hlz
  subst ho'
  obtain ⟨g1, g2, g3, g4⟩ := hg
  rcases he : evalN g (.core (.regularized u) cache ds) (after g w ops).env with ⟨p, i', env'⟩
  have hst' := hst
  rw [call0_facade, he] at hst'
  simp only [g3, g4, Bool.or_self, keep_false, Bool.and_false, Bool.not_false, Bool.and_true] at hst'
  rw [hst'] at hv
  cases p with
  | ok r =>
    simp only at hv
    by_cases hr : r.live = true
    · simp only [hr, if_true, Obs.ret.injEq, Out.ok.injEq] at hv
      have hset := evalN_settles g ⟨g1, g2, g3, g4⟩ _ _ (after g w ops).env hsh hno r (.unregularized (.unwrapped i')) env'
        (by rw [evalN_facade, he]; simp [g3, g4, Out.map, LazyRes.through])
      have hin : i'.Settled := by simpa only [Obj.Settled] using hset.1
      obtain ⟨r', _, hval, hr'⟩ := settled_evalN g i' hin
      have hcore : ∃ f cache', i' = .core f cache' (evalDeps g ds (after g w ops).env).2.1 ∧ cache'.Fits u.ret := by
        obtain ⟨rs, env1, h1 | h1⟩ := evalN_core_obj g (.regularized u) cache ds (after g w ops).env <;> rw [he] at h1
        · exact ⟨_, _, by simpa [g2] using h1, by rw [hu]; exact hf⟩
        · refine ⟨_, _, by simpa [g2] using h1, ?_⟩
          rw [g1, keep_false, hu]
          exact coreTail_fits g _ cache rs env1 hf
      have hlive : r'.live = true := by
        obtain ⟨f, cache', rfl, hf'⟩ := hcore
        have hl : g.coreLive cache = true := by
          rcases hd : evalDeps g ds (after g w ops).env with ⟨q, ds', env1⟩
          cases q with
          | ok rs =>
            rw [evalN_core_ok g _ cache ds _ hd] at he
            have h1 := congrArg Prod.fst he
            simp only [coreTail] at h1
            split at h1
            · split at h1
              · cases h1
              · split at h1
                · split at h1
                  · rw [← Out.ok.inj h1] at hr; exact hr
                  · cases h1
                · rename_i o _ _ hne _
                  cases o <;> simp [Out.map] at h1
                  exact (hne _ rfl).elim
            · split at h1
              · rw [← Out.ok.inj h1] at hr; exact hr
              · cases h1
          | _ =>
            rw [evalN_core_fail g _ cache ds _ hd rfl] at he
            have h1 := congrArg Prod.fst he
            simp [Out.map] at h1
        have hk : g.coreLive cache' = g.coreLive cache := by
          rw [hu] at hf'
          cases cache <;> cases cache' <;> simp_all [Cache.Fits, Glue.coreLive]
        obtain ⟨⟨v', hv'⟩, hsd⟩ : (∃ v, cache'.val? = some v) ∧ SettledL _ := by simpa only [Obj.Settled] using hin
        obtain ⟨rs, h1, h2⟩ := settled_evalDeps g _ hsd
        have h3 := hr' (after g w ops).env
        rw [evalN_core_ok g _ cache' _ _ (h2 _), coreTail_skip g _ cache' rs _ v' h1 hv'] at h3
        have h4 := congrArg Prod.fst h3
        simp only [Out.ok.injEq] at h4
        rw [← h4]
        simp only [hk, hl]
      have hvalue : r'.value = r.value := by
        have h1 := hset.2
        simp only [Obj.lastVal, hval, Option.some.injEq] at h1
        exact h1
      have hrv : i'.valueIsRV = (Obj.core (.regularized u) cache ds).valueIsRV := by
        obtain ⟨f, cache', rfl, hf'⟩ := hcore
        rw [hu] at hf'
        cases cache <;> cases cache' <;> simp_all [Cache.Fits, Obj.valueIsRV]
      have hvar : (after g w (ops ++ .call i :: rest)).vars[i]? = some (.unregularized (.unwrapped i')) := by
        simp only [after, run_append, run]
        refine settled_run g i i' hset.1 rest _ ?_
        have : step g (run g (State.init w) ops).2 (.call i) = step g (after g w ops) (.call i) := rfl
        rw [this, hst']
        exact set_get _ _ _ _ ho
      rw [step_call g _ i _ hvar, call0_facade, hr' _]
      simp only [g3, g4, Bool.or_self, keep_false, Bool.and_false, Bool.not_false, Bool.and_true, hlive, if_true, hvalue, hrv, hv]
      have hsame : ∀ (l : List (Obj D W E S)), l[i]? = some (.unregularized (.unwrapped i')) → l.set i (.unregularized (.unwrapped i')) = l := by
        intro l h
        apply List.ext_getElem?
        intro j
        by_cases hj : i = j
        · subst hj; rw [set_get _ _ _ _ h, h]
        · rw [List.getElem?_set_ne hj]
      rw [hsame _ hvar]
    · simp [hr] at hv
  | _ => simp at hv

/-- A function reading the world behind two lazy functions: world 5, result 2; world 105, result still 2. -/
example : step .retained (after .retained 5 ([.mk rd [], .mk halfArg [.var 0]] ++ .call 1 :: [.poke (· + 100), .call 0]) : State Int Int Nat Nat) (.call 1) =
    (.ret (.ok (some (.data 2))), after .retained 5 ([.mk rd [], .mk halfArg [.var 0]] ++ .call 1 :: [.poke (· + 100), .call 0])) :=
  C69_frozen .retained ⟨rfl, rfl, rfl, rfl⟩ 5 _ 1 (.lazy halfArg.toFnCode [.lazy rd.toFnCode []]) rfl (by simp [Tree.leafIds]) _ rfl _

omit [CxxData D] in
/-- What the function is called with, at a place where two evaluations agree. -/
theorem readValues_at {rs qs : List (LazyRes D)} {as bs : List (Val D)} (h1 : readValues rs = some as) (h2 : readValues qs = some bs)
    (hl : rs.length = qs.length) (k : Nat) (hk : (rs[k]?).map LazyRes.value = (qs[k]?).map LazyRes.value) (hlt : k < rs.length) : as[k]? = bs[k]? := by
  simp only [readValues] at h1 h2
  split at h1 <;> simp only [Option.some.injEq, reduceCtorEq] at h1
  split at h2 <;> simp only [Option.some.injEq, reduceCtorEq] at h2
  subst h1 h2
  rw [transform_eq, transform_eq]
  match rs, qs, hl, hlt with
  | [r], [q], _, hlt =>
    have : k = 0 := by simpa using hlt
    subst this
    simp only [List.getElem?_cons_zero, Option.map_some, Option.some.injEq] at hk
    simp [hk]
  | r :: r' :: rs, q :: q' :: qs, _, _ =>
    rw [tupleCTAD_id _ _ (by simp), tupleCTAD_id _ _ (by simp), List.getElem?_map, List.getElem?_map]
    exact hk

/-- **C69, frozen arguments**: if dependency number `k` of a lazy function has no plain function among its direct and indirect dependencies, then all
invocations of the wrapped function, at any two times, get the same value for argument number `k`; whatever the program does in between, whatever the
functions read and whether or not they throw. -/
theorem C69_argument_frozen (g : Glue) (hg : g.Retains) (w : W) (ops : List (Op D W E S)) (i : Nat) (c : FnCode D W E S) (us : List (Tree D W E S))
    (ht : (runTrees [] ops)[i]? = some (.lazy c us)) (hid : c.id ∉ (us.map Tree.postIds).flatten) (k : Nat) (u : Tree D W E S) (hu : us[k]? = some u)
    (hno : u.leafIds = []) (rest : List (Op D W E S)) (l1 l2 : List (Ev D S)) (args1 args2 : List (Val D))
    (hl1 : (step g (after g w ops) (.call i)).2.env.log = (after g w ops).env.log ++ l1) (hm1 : (c.id, args1) ∈ fnCalls l1)
    (hl2 : (step g (after g w (ops ++ .call i :: rest)) (.call i)).2.env.log = (after g w (ops ++ .call i :: rest)).env.log ++ l2)
    (hm2 : (c.id, args2) ∈ fnCalls l2) : args1[k]? = args2[k]? := by
  obtain ⟨o, c', us', ho, he, hsh⟩ := vars_of_tree g w ops i _ ht
  cases he
  have hlz := hsh
  simp only [Shape] at hlz
  obtain ⟨f, cache, ds, rfl, hf, hds, rfl⟩ := hlz
  obtain ⟨g1, g2, g3, g4⟩ := hg
  have hst := step_call g (after g w ops) i _ ho
  rw [call0_facade] at hst
  rw [hst] at hl1
  obtain ⟨rs, ds', env1, h1, h2, h3⟩ := invoked_args g f cache us ds _ hds hid l1 args1 hl1 hm1
  obtain ⟨d, r, d', e, e', k1, k2, k3, _, k5⟩ := evalDeps_nth g us ds _ hds rs ds' env1 h1 k u hu
  obtain ⟨s1, s2⟩ := evalN_settles g ⟨g1, g2, g3, g4⟩ u d e k3 hno r d' e' k5
  have hdep : HasDep k d' (after g w (ops ++ .call i :: rest)) i := by
    simp only [after, run_append, run]
    refine hasDep_run g i k d' s1 rest _ ?_
    have : step g (run g (State.init w) ops).2 (.call i) = step g (after g w ops) (.call i) := rfl
    rw [this, hst, h3]
    simp only [g1, g2, g3, g4, Bool.or_self, keep_false]
    exact ⟨_, _, _, set_get _ _ _ _ ho, k2⟩
  have ht2 : (runTrees [] (ops ++ .call i :: rest))[i]? = some (.lazy f.toFnCode us) := by
    rw [runTrees_append]; exact runTrees_get _ _ _ _ ht
  obtain ⟨o2, c2, us2, ho2, he2, hsh2⟩ := vars_of_tree g w _ i _ ht2
  cases he2
  simp only [Shape] at hsh2
  obtain ⟨f2, cache2, ds2, hf2, _, hds2, rfl⟩ := hsh2
  obtain ⟨ff, fc, fds, hfd, hfk⟩ := hdep
  rw [after, ho2] at hfd
  cases hfd
  rw [step_call g _ i _ ho2, call0_facade] at hl2
  rw [← hf2] at hid hm2
  obtain ⟨rs2, ds2', env2, q1, q2, _⟩ := invoked_args g f2 cache2 us ds2 _ hds2 hid l2 args2 hl2 hm2
  obtain ⟨d2, r2, d2', e2, e2', j1, _, _, j4, j5⟩ := evalDeps_nth g us ds2 _ hds2 rs2 ds2' env2 q1 k u hu
  rw [hfk] at j4
  cases j4
  obtain ⟨r3, _, j6, j7⟩ := settled_evalN g d' s1
  rw [j7 e2] at j5
  cases j5
  have hlen : rs.length = rs2.length := by
    rw [evalDeps_length g ds _ rs (by rw [h1]), evalDeps_length g ds2 _ rs2 (by rw [q1]), ← hds.length, ← hds2.length]
  refine readValues_at h2 q2 hlen k ?_ (List.getElem?_eq_some_iff.1 k1).1
  rw [k1, j1]
  simp only [Option.map_some]
  rw [← s2, ← j6]

/-- **C69 is false of the documented program** wherever the caches are kept: after the first rendering, every rendering gets the icon of the first one,
whatever the drawing mode is. For all programs after the definitions and all functions, whatever they read. -/
theorem C69_documented_frozen (g : Glue) (hg : g.Retains) (mode name load render pos : UFn D W E S) (hpos : pos.ret ≠ .void)
    (hid : render.id ∉ [pos.id, mode.id, name.id, load.id]) (w : W) (before rest : List (Op D W E S)) (l1 l2 : List (Ev D S)) (args1 args2 : List (Val D))
    (hl1 : (step g (after g w (documented mode name load render pos ++ before)) (.call 3)).2.env.log =
      (after g w (documented mode name load render pos ++ before)).env.log ++ l1) (hm1 : (render.id, args1) ∈ fnCalls l1)
    (hl2 : (step g (after g w (documented mode name load render pos ++ before ++ .call 3 :: rest)) (.call 3)).2.env.log =
      (after g w (documented mode name load render pos ++ before ++ .call 3 :: rest)).env.log ++ l2) (hm2 : (render.id, args2) ∈ fnCalls l2) :
    args1[1]? = args2[1]? := by
  refine C69_argument_frozen g hg w _ 3 render.toFnCode [.function pos.toFnCode, .lazy load.toFnCode [.lazy name.toFnCode [.lazy mode.toFnCode []]]] ?_ ?_
    1 _ rfl (by simp [Tree.leafIds]) rest l1 l2 args1 args2 hl1 hm1 hl2 hm2
  · rw [runTrees_append]
    refine runTrees_get _ _ _ _ ?_
    simp [documented, runTrees, stepTrees, argTrees, ArgRef.tree, hpos]
  · simpa [Tree.postIds] using hid

/-- The world is `100 * mode + position`. -/
def Demo.getMode : F := ⟨⟨21, .val, fun s _ w => (.ok (.data (w / 100)), s + 1, w)⟩, 0⟩
/-- Position of the mouse. -/
def Demo.getPos : F := ⟨⟨22, .val, fun s _ w => (.ok (.data (w % 100)), s + 1, w)⟩, 0⟩
/-- File number of the icon. -/
def Demo.getName : F := ⟨⟨23, .val, fun s vs w => (.ok (.data ((vs.map toInt).foldl (· + ·) 0 % 2)), s + 1, w)⟩, 0⟩
/-- The icon. -/
def Demo.loadImage : F := ⟨⟨24, .val, fun s vs w => (.ok (.data ((vs.map toInt).foldl (· + ·) 0 + 1000)), s + 1, w)⟩, 0⟩
/-- Position and icon. -/
def Demo.renderAt : F := ⟨⟨25, .val, fun s vs w => (.ok (.tup vs), s + 1, w)⟩, 0⟩

/-- Mode 0 at position 5; then mode 1 at position 7: with the caches kept the old icon is drawn at the new position; with `get_drawing_mode` passed
directly, and also with the caches dropped, the new one. -/
theorem C69_documented_stale : let loop : List P := [.call 3, .poke (fun _ => 107), .call 3]
    let loop' : List P := [.call 2, .poke (fun _ => 107), .call 2]
    (run .retained (State.init 5) (documented getMode getName loadImage renderAt getPos ++ loop) : _ × State Int Int Nat Nat).1.drop 4 =
      [.ret (.ok (some (.tup [.data 5, .data 1000]))), .unit, .ret (.ok (some (.tup [.data 7, .data 1000])))] ∧
    (run .retained (State.init 5) (direct getMode getName loadImage renderAt getPos ++ loop') : _ × State Int Int Nat Nat).1.drop 3 =
      [.ret (.ok (some (.tup [.data 5, .data 1000]))), .unit, .ret (.ok (some (.tup [.data 7, .data 1001])))] ∧
    (run copying (State.init 5) (documented getMode getName loadImage renderAt getPos ++ loop) : _ × State Int Int Nat Nat).1.drop 4 =
      [.ret (.ok (some (.tup [.data 5, .data 1000]))), .unit, .ret (.ok (some (.tup [.data 7, .data 1001])))] := ⟨rfl, rfl, rfl⟩

/-- The two invocations of `render_mouse_cursor` in that run. -/
example : ([Val.data 5, Val.data 1000] : List V)[1]? = ([Val.data 7, Val.data 1000] : List V)[1]? :=
  C69_documented_frozen .retained ⟨rfl, rfl, rfl, rfl⟩ getMode getName loadImage renderAt getPos (by decide) (by decide) 5 [] [.poke (fun _ => 107)]
    [.call .dep 22 [] 0 1, .call .fn 21 [] 0 1, .call .fn 23 [.data 0] 0 1, .call .fn 24 [.data 0] 0 1, .call .fn 25 [.data 5, .data 1000] 0 1]
    [.call .dep 22 [] 1 2, .cmp (.data 5) (.data 7), .call .fn 25 [.data 7, .data 1000] 1 2, .cmp (.tup [.data 5, .data 1000]) (.tup [.data 7, .data 1000])]
    _ _ rfl (by simp [fnCalls, renderAt]) rfl (by simp [fnCalls, renderAt])

omit [CxxData D] in
/-- Calls and changes of the world make no variables. -/
theorem runTrees_loop (ops : List (Op D W E S)) (h : ∀ op ∈ ops, (∃ i, op = .call i) ∨ ∃ h, op = .poke h) : ∀ ts : List (Tree D W E S), runTrees ts ops = ts := by
  induction ops with
  | nil => intro ts; rfl
  | cons op ops ih =>
    intro ts
    rcases h op (by simp) with ⟨i, rfl⟩ | ⟨q, rfl⟩ <;> exact ih (fun o ho => h o (by simp [ho])) ts

/-- **C69** (with `get_drawing_mode` passed as a plain function instead of a lazy function without dependencies). In every iteration of every loop the
rendering is the one of the current position and the icon of the current drawing mode.

Missing for the full property: the documented program itself, see `C69_documented_frozen`. -/
theorem C69_direct_partial (hs : SoundNe D) (g : Glue) (hg : g.Retains ∨ g.Drops) (m : Meaning D W E S O) (mode name load render pos : UFn D W E S)
    (hret : mode.ret = .val ∧ name.ret = .val ∧ load.ret = .val ∧ render.ret = .val ∧ pos.ret = .val)
    (hfn : m.FnOk name.toFnCode ∧ m.FnOk load.toFnCode ∧ m.FnOk render.toFnCode) (hleaf : m.LeafOk mode.toFnCode ∧ m.LeafOk pos.toFnCode)
    (htup : (∀ o vs, m.leaf mode.toFnCode o ≠ .tup vs) ∧ ∀ args vs, m.fn name.toFnCode args ≠ .tup vs) (hval : g.resultByRef = false)
    (w : W) (loop : List (Op D W E S)) (hloop : ∀ op ∈ loop, (∃ i, op = .call i) ∨ ∃ h, op = .poke h) :
    (step g (after g w (direct mode name load render pos ++ loop)) (.call 2)).1 =
      .ret (.ok (some (let o := m.obs (after g w (direct mode name load render pos ++ loop)).env.w
        m.fn render.toFnCode [m.leaf pos.toFnCode o, m.fn load.toFnCode [m.fn name.toFnCode [m.leaf mode.toFnCode o]]]))) := by
  obtain ⟨r1, r2, r3, r4, r5⟩ := hret
  have htrees : runTrees [] (direct mode name load render pos ++ loop) = [.lazy name.toFnCode [.function mode.toFnCode],
      .lazy load.toFnCode [.lazy name.toFnCode [.function mode.toFnCode]],
      .lazy render.toFnCode [.function pos.toFnCode, .lazy load.toFnCode [.lazy name.toFnCode [.function mode.toFnCode]]]] := by
    rw [runTrees_append, runTrees_loop loop hloop]
    simp [direct, runTrees, stepTrees, argTrees, ArgRef.tree, r1, r5]
  have hokM : m.Ok (.function mode.toFnCode) := .function _ hleaf.1
  have hokN : m.Ok (.lazy name.toFnCode [.function mode.toFnCode]) := .lazy _ _ hfn.1 (by simpa using hokM)
  have hokL : m.Ok (.lazy load.toFnCode [.lazy name.toFnCode [.function mode.toFnCode]]) := .lazy _ _ hfn.2.1 (by simpa using hokN)
  have hokP : m.Ok (.function pos.toFnCode) := .function _ hleaf.2
  have hokR : m.Ok (.lazy render.toFnCode [.function pos.toFnCode, .lazy load.toFnCode [.lazy name.toFnCode [.function mode.toFnCode]]]) :=
    .lazy _ _ hfn.2.2 (by simpa using ⟨hokP, hokL⟩)
  have htN : m.NoLone (.lazy name.toFnCode [.function mode.toFnCode]) := .lazy _ _
    (by intro t ht o vs; simp only [List.cons.injEq, and_true] at ht; subst ht; simpa [Meaning.eager, r1, RetTy.regularize] using htup.1 o vs)
    (by intro t ht; simp only [List.mem_singleton] at ht; subst ht; exact .function _)
  have htL : m.NoLone (.lazy load.toFnCode [.lazy name.toFnCode [.function mode.toFnCode]]) := .lazy _ _
    (by intro t ht o vs; simp only [List.cons.injEq, and_true] at ht; subst ht; simpa [Meaning.eager, r2, RetTy.regularize] using htup.2 _ vs)
    (by intro t ht; simp only [List.mem_singleton] at ht; subst ht; exact htN)
  have htR : m.NoLone (.lazy render.toFnCode [.function pos.toFnCode, .lazy load.toFnCode [.lazy name.toFnCode [.function mode.toFnCode]]]) :=
    .lazy _ _ (by intro t ht; simp at ht) (by
      intro t ht
      simp only [List.mem_cons, List.not_mem_nil, or_false] at ht
      rcases ht with rfl | rfl
      · exact .function _
      · exact htL)
  rw [C04_fresh_partial hs g hg m w _ (by
    rw [htrees]
    intro t ht
    simp only [List.mem_cons, List.not_mem_nil, or_false] at ht
    rcases ht with rfl | rfl | rfl
    · exact ⟨hokN, htN, .inl hval⟩
    · exact ⟨hokL, htL, .inl hval⟩
    · exact ⟨hokR, htR, .inl hval⟩) 2 _ (by rw [htrees]; rfl)]
  simp [Meaning.result, Meaning.eager, r1, r2, r3, r4, r5, RetTy.regularize]

/-- In the demo world: at any position, in any mode, after any loop. -/
example (w : Int) (loop : List P) (hloop : ∀ op ∈ loop, (∃ i, op = .call i) ∨ ∃ h, op = .poke h) :
    (step .retained (after .retained w (direct getMode getName loadImage renderAt getPos ++ loop)) (.call 2)).1 =
      .ret (.ok (some (let w' := (after .retained w (direct getMode getName loadImage renderAt getPos ++ loop)).env.w
        .tup [.data (w' % 100), .data (0 + (0 + w' / 100) % 2 + 1000)]))) :=
  C69_direct_partial soundNe .retained (.inl ⟨rfl, rfl, rfl, rfl⟩) canon getMode getName loadImage renderAt getPos ⟨rfl, rfl, rfl, rfl, rfl⟩
    ⟨fun _ _ _ => ⟨rfl, rfl⟩, fun _ _ _ => ⟨rfl, rfl⟩, fun _ _ _ => ⟨rfl, rfl⟩⟩ ⟨fun _ _ => ⟨rfl, rfl⟩, fun _ _ => ⟨rfl, rfl⟩⟩
    ⟨fun _ _ h => (by cases h), fun _ _ h => (by cases h)⟩ rfl w loop hloop

end Pigro
