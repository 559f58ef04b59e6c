import Verif.Proofs.Sugar
import Verif.Proofs.Handwritten
import Verif.Model.ExtraLazy
import Verif.Spec.ExtraLazy
/-!
# Proofs about the editor
-/
namespace Pigro
variable {D W E S : Type} [CxxData D]

/-- `lazy(load_image, "arrow.png")`. -/
def arrowObj (name : Val D) (load : UFn D W E S) (ca : Option (Val D)) : Obj D W E S :=
  .unregularized (.unwrapped (.core (.regularized load) (.opt ca) [.lazyValue name false]))

/-- `lazy(render_mouse_cursor, get_mouse_pos, arrow)`. -/
def editorObj (name : Val D) (render : UFn D W E S) (cr : Cache D) (pos : UFn D W E S) (cp : Option (Val D)) (load : UFn D W E S) (ca : Option (Val D)) :
    Obj D W E S :=
  .unregularized (.unwrapped (.core (.regularized render) cr [.core (.wrapDep pos) (.opt cp) [.lazyValue (.data CxxData.zero) true], arrowObj name load ca]))

/-- A function with another number. -/
theorem coreTail_quiet (g : Glue) (id : Nat) (u : UFn D W E S) (hid : u.id ≠ id) (c : Cache D) (rs : List (LazyRes D)) (env : Env D W S) :
    drawn id (coreTail g (.regularized u) c rs env).2.2.2.log = drawn id env.log ∧
    ∃ s, (coreTail g (.regularized u) c rs env).2.1 = .regularized { u with st := s } := by
  have hcmp : ∀ v, drawn id (cmpEvents c v : List (Ev D S)) = 0 := by
    intro v
    cases c with
    | rv _ => rfl
    | opt o => cases o <;> rfl
  have hfn : ∀ a b d, drawn id [(.call .fn u.id a b d : Ev D S)] = 0 := by
    intro a b d
    simp [drawn, hid]
  unfold coreTail
  simp only
  split
  · split
    · exact ⟨rfl, u.st, rfl⟩
    · rename_i values _
      rcases hr : u.run u.st values env.w with ⟨e | v, s, w⟩
      · simp only [Fun.call, UFn.invoke, hr, drawn_append, hfn]
        refine ⟨rfl, ?_⟩
        cases g.regParamByValue <;> exact ⟨_, rfl⟩
      · simp only [Fun.call, UFn.invoke, hr]
        split <;> simp only [drawn_append, hfn, hcmp] <;> refine ⟨rfl, ?_⟩ <;> cases g.regParamByValue <;> exact ⟨_, rfl⟩
  · split <;> exact ⟨rfl, u.st, rfl⟩

/-- What the functions have to be like. -/
structure EditorFit (g : Glue) (render pos load : UFn D W E S) : Prop where
  posRet : pos.ret = .val
  loadRet : load.ret = .val
  posKept : pos.Kept g.wrapParamByValue
  loadKept : load.Kept g.regParamByValue
  other : render.id ≠ load.id

/-- The arrow, loaded or not. -/
theorem arrow_eval (g : Glue) (hg : g.Retains) (hr : g.resultByRef = false) (name : Val D) (hn : name.asTuple = none) (load : UFn D W E S)
    (hl : load.ret = .val) (hk : load.Kept g.regParamByValue) (ca : Option (Val D)) (env : Env D W S) :
    ∃ o s ca' env', evalN g (arrowObj name load ca) env = (o, arrowObj name { load with st := s } ca', env') ∧ (o.isOk = true → ca'.isSome) ∧
      drawn load.id env'.log = drawn load.id env.log + (if ca.isSome then 0 else 1) := by
  obtain ⟨h1, h2, h3⟩ := evalN_single g hg hr load hl hk ca (.lazyValue name false) (.lazyValue name false) env env name false hn (by simp [evalN, hr])
  cases ca with
  | some v => exact ⟨_, load.st, some v, _, h1 rfl v rfl, fun _ => rfl, by simp⟩
  | none =>
    rcases hrun : (load.run load.st [name] env.w).1 with e | v
    · exact ⟨_, _, none, _, h2 (.inr rfl) e hrun, by simp [Out.isOk], by rw [drawn_append]; simp [drawn]⟩
    · refine ⟨_, _, some v, _, h3 (.inr rfl) v hrun, fun _ => rfl, ?_⟩
      rw [drawn_append, drawn_append, drawn_optCmp]
      simp [drawn]

/-- One iteration. -/
theorem editor_frame (g : Glue) (hg : g.Retains) (hr : g.resultByRef = false) (name : Val D) (hn : name.asTuple = none) (render pos load : UFn D W E S)
    (hf : EditorFit g render pos load) (cr : Cache D) (cp ca : Option (Val D)) (env : Env D W S) :
    ∃ o s1 cr' s2 cp' s3 ca' env', call0 g (editorObj name render cr pos cp load ca) env =
        (o, editorObj name { render with st := s1 } cr' { pos with st := s2 } cp' { load with st := s3 } ca', env') ∧ (o.isOk = true → ca'.isSome) ∧
      drawn load.id env'.log ≤ drawn load.id env.log + (if ca.isSome then 0 else 1) ∧
      ((∃ v, (pos.run pos.st [] env.w).1 = .ok v) → drawn load.id env'.log = drawn load.id env.log + (if ca.isSome then 0 else 1)) := by
  obtain ⟨p1, p2⟩ := evalN_polled g hg hr pos hf.posRet hf.posKept cp env
  have hpoll : ∀ a b, drawn load.id [(.call .dep pos.id [] a b : Ev D S)] = 0 := by intro a b; rfl
  obtain ⟨g1, g2, g3, g4⟩ := hg
  rcases hrun : (pos.run pos.st [] env.w).1 with e | v
  · have hd : evalDeps g [.core (.wrapDep pos) (.opt cp) [.lazyValue (.data CxxData.zero) true], arrowObj name load ca] env =
        (.thrown e, [.core (.wrapDep { pos with st := (pos.run pos.st [] env.w).2.1 }) (.opt cp) [.lazyValue (.data CxxData.zero) true], arrowObj name load ca],
          ⟨(pos.run pos.st [] env.w).2.2, env.log ++ [.call .dep pos.id [] pos.st (pos.run pos.st [] env.w).2.1]⟩) := by
      simp only [evalDeps, p1 e hrun, Out.map]
    simp only [editorObj]
    rw [call0_facade, evalN_core_fail g _ _ _ _ hd rfl]
    simp only [g2, g3, g4, Bool.or_self, keep_false, Out.map]
    refine ⟨.thrown e, render.st, cr, _, cp, load.st, ca, _, rfl, by simp [Out.isOk], ?_, by simp⟩
    rw [drawn_append, hpoll]
    omega
  · obtain ⟨o, s, ca', env', a1, a2, a3⟩ := arrow_eval g ⟨g1, g2, g3, g4⟩ hr name hn load hf.loadRet hf.loadKept ca
      ⟨(pos.run pos.st [] env.w).2.2, env.log ++ [.call .dep pos.id [] pos.st (pos.run pos.st [] env.w).2.1] ++ optCmp cp v⟩
    have hd := cursor_deps g _ _ _ _ env _ _ _ (p2 v hrun) o a1
    rw [drawn_append, drawn_append, drawn_optCmp, hpoll, Nat.add_zero] at a3
    simp only [editorObj]
    rw [call0_facade]
    cases hok : o.isOk with
    | true =>
      cases o with
      | ok r =>
        rw [evalN_core_ok g _ _ _ _ hd]
        obtain ⟨q1, s', q2⟩ := coreTail_quiet g load.id render hf.other cr [⟨v, optNe cp v, true⟩, r] env'
        simp only [g1, g2, g3, g4, Bool.or_self, keep_false, q2]
        refine ⟨_, _, _, _, _, _, ca', _, rfl, fun _ => a2 hok, ?_, ?_⟩
        · rw [q1, a3]; exact Nat.le_refl _
        · intro _; rw [q1, a3]
      | _ => simp [Out.isOk] at hok
    | false =>
      rw [evalN_core_fail g _ _ _ _ hd (by cases o <;> simp_all [Out.map, Out.isOk])]
      simp only [g2, g3, g4, Bool.or_self, keep_false]
      refine ⟨_, render.st, cr, _, _, _, ca', _, rfl, ?_, by rw [a3]; exact Nat.le_refl _, fun _ => a3⟩
      intro ho
      cases o <;> simp_all [Out.map, Out.isOk]

omit [CxxData D] in
theorem EditorFit.next {g : Glue} {render pos load : UFn D W E S} (h : EditorFit g render pos load) (s1 s2 s3 : S) :
    EditorFit g { render with st := s1 } { pos with st := s2 } { load with st := s3 } :=
  ⟨h.posRet, h.loadRet, h.posKept, h.loadKept, h.other⟩

/-- The loop. -/
theorem editor_loop (g : Glue) (hg : g.Retains) (hr : g.resultByRef = false) (hidden : W → Bool) (name : Val D) (hn : name.asTuple = none) (x : Nat)
    (l : List (Option (W → W))) : ∀ (render pos load : UFn D W E S) (cr : Cache D) (cp ca : Option (Val D)) (s : State D W E S), EditorFit g render pos load →
      s.vars[x]? = some (editorObj name render cr pos cp load ca) →
      let n := if ca.isSome then 0 else if shown hidden s.env.w l then 1 else 0
      let m := drawn load.id (editorLoop g hidden x s l).2.env.log
      m ≤ drawn load.id s.env.log + n ∧ ((∀ s w, ∃ v, (pos.run s [] w).1 = .ok v) → m = drawn load.id s.env.log + n) := by
  induction l with
  | nil => intro render pos load cr cp ca s hf hx; simp [editorLoop, whileTrue, shown]
  | cons f l ih =>
    intro render pos load cr cp ca s hf hx
    cases f with
    | some f => exact ih render pos load cr cp ca { s with env := s.env.poke f } hf hx
    | none =>
      by_cases hh : hidden s.env.w = true
      · have := ih render pos load cr cp ca s hf hx
        simpa only [editorLoop, whileTrue, hh, if_true, shown, Bool.not_true, Bool.false_or] using this
      · obtain ⟨o, s1, cr', s2, cp', s3, ca', env', h1, h2, h3, h4⟩ := editor_frame g hg hr name hn render pos load hf cr cp ca s.env
        have hstep := step_call g s x _ hx
        rw [h1] at hstep
        have hsh : shown hidden s.env.w (none :: l) = true := by simp [shown, hh]
        have hn1 : (if ca.isSome then 0 else if shown hidden s.env.w (none :: l) then 1 else 0) = if ca.isSome then 0 else 1 := by simp [hsh]
        simp only [hn1]
        cases o with
        | ok r =>
          have := ih _ _ _ cr' cp' ca' ⟨s.vars.set x (editorObj name { render with st := s1 } cr' { pos with st := s2 } cp' { load with st := s3 } ca'), env'⟩
            (hf.next s1 s2 s3) (by
              have := (List.getElem?_eq_some_iff.mp hx).1
              simp [this])
          have hc := h2 rfl
          simp only [hc, if_true, Nat.add_zero] at this
          simp only [editorLoop, whileTrue, hh, hstep, Obs.discard, Out.map] at this ⊢
          exact ⟨Nat.le_trans this.1 h3, fun hp => (this.2 hp).trans (h4 (hp _ _))⟩
        | _ =>
          simp only [editorLoop, whileTrue, hh, hstep, Obs.discard, Out.map]
          exact ⟨h3, fun hp => h4 (hp _ _)⟩

/-- Both programs in the loop. -/
theorem editor_same {pre : List (Ev D S)} (g : Glue) (hg : g.AllOrNothing) (hl : g.EquallyLive) (hidden : W → Bool) (ρ : Recipe D W E S) (k : Nat) (hρ : ρ.Yields k)
    (hargs : g.resultByRef = true → ∀ v, (ρ v).2 = []) (ren : List Nat) (x : Nat) (l : List (Option (W → W))) : ∀ (ts : List (Sug D W E S)) (s s' : State D W E S),
      SugVars ρ k ren ts s.vars s'.vars → x < s.vars.length → Agree pre k s.env s'.env →
      (editorLoop g hidden x s l).1 = (editorLoop g hidden (ren.getD x 0) s' l).1 ∧
      Agree pre k (editorLoop g hidden x s l).2.env (editorLoop g hidden (ren.getD x 0) s' l).2.env := by
  induction l with
  | nil => intro ts s s' hv hx he; exact ⟨rfl, he⟩
  | cons f l ih =>
    intro ts s s' hv hx he
    cases f with
    | some f => exact ih ts { s with env := s.env.poke f } { s' with env := s'.env.poke f } hv hx ⟨by simp only [Env.poke, he.1], he.2⟩
    | none =>
      have hw : s'.env.w = s.env.w := by simp [he.1]
      by_cases hh : hidden s.env.w = true
      · have := ih ts s s' hv hx he
        simpa only [editorLoop, whileTrue, hw, hh, if_true] using this
      · obtain ⟨o, ho⟩ : ∃ o, s.vars[x]? = some o := ⟨s.vars[x], by simp [hx]⟩
        obtain ⟨r, ts', s1, s1', hs1, hs2, hv', he', hlen⟩ := call_sim g hg hl ρ k hρ hargs ren ts s s' hv he x o ho
        have hlen1 : s1.vars.length = s.vars.length := by
          have := step_call g s x _ ho
          rw [hs1] at this
          simp only [Prod.mk.injEq] at this
          rw [this.2]
          simp
        cases r with
        | ok r =>
          have h1 : editorLoop g hidden x s (none :: l) = editorLoop g hidden x s1 l := by simp [editorLoop, whileTrue, hh, hs1, Obs.discard, Out.map]
          have h2 : editorLoop g hidden (ren.getD x 0) s' (none :: l) = editorLoop g hidden (ren.getD x 0) s1' l := by
            simp only [editorLoop, whileTrue, hw, hh, hs2, Obs.discard, Out.map, if_false, Bool.false_eq_true]
          rw [h1, h2]
          exact ih ts' s1 s1' hv' (by omega) he'
        | _ =>
          simp only [editorLoop, whileTrue, hw, hh, hs1, hs2, Obs.discard, Out.map]
          exact ⟨rfl, he'⟩

/-- What the image is replaced by; other values by lambdas. -/
noncomputable def arrowRecipe (load : UFn D W E S) (name img : Val D) : Recipe D W E S := fun v =>
  open Classical in if v = img then (load, [name]) else (constant load.id load.st v, [])

omit [CxxData D] in
theorem arrowRecipe_yields (load : UFn D W E S) (name img : Val D) (hret : load.ret = img.retTy) (hn : name.asTuple = none)
    (hload : ∀ s w, ∃ s', load.run s [name] w = (.ok img, s', w)) : (arrowRecipe load name img).Yields load.id := by
  intro v
  by_cases h : v = img
  · subst h
    simp only [arrowRecipe, if_true]
    refine ⟨trivial, hret, ?_, hload⟩
    intro vs he
    simp only [List.cons.injEq, and_true] at he
    subst he
    simp [Val.asTuple] at hn
  · simp only [arrowRecipe, h, if_false]
    exact ⟨rfl, rfl, by simp, fun s _ => ⟨s, rfl⟩⟩

theorem editor_vars (g : Glue) (render pos load : UFn D W E S) (name img : Val D) (env env' : Env D W S) (hid : render.id ≠ load.id)
    (hret : load.ret = img.retTy) (hp : pos.ret ≠ .void) :
    let a := (run g ⟨[], env⟩ [.mk render [.function pos, .value img]]).2
    let b := (run g ⟨[], env'⟩ [.mk load [.value name], .mk render [.function pos, .var 0]]).2
    SugVars (arrowRecipe load name img) load.id [1] [.lzy render (Cache.empty render.ret) [.fn pos (Cache.empty pos.ret), .val img load (Cache.empty img.retTy)]]
      a.vars b.vars ∧ a.vars.length = 1 ∧ a.env = env ∧ b.env = env' := by
  have ha : (run g ⟨[], env⟩ [.mk render [.function pos, .value img]]).2 = ⟨[Sug.src (.lzy render (Cache.empty render.ret)
      [.fn pos (Cache.empty pos.ret), .val img load (Cache.empty img.retTy)])], env⟩ := by
    simp [run, step, resolveAll, ArgRef.resolve, pigroLazy, ensureAll, ensureLazy, DepArg.caps, ensureSelect, ensureViable, moreConstrained, detailLazy,
      Fun.ret, Sug.src, Sug.srcL, hp]
  have hb : (run g ⟨[], env'⟩ [.mk load [.value name], .mk render [.function pos, .var 0]]).2 = ⟨[constObj [name] load (Cache.empty load.ret),
      Sug.tgt (arrowRecipe load name img) (.lzy render (Cache.empty render.ret) [.fn pos (Cache.empty pos.ret), .val img load (Cache.empty img.retTy)])], env'⟩ := by
    simp [run, step, resolveAll, ArgRef.resolve, pigroLazy, ensureAll, ensureLazy, DepArg.caps, Obj.caps, ensureSelect, ensureViable, moreConstrained, detailLazy,
      Fun.ret, Sug.tgt, Sug.tgtL, constObj, arrowRecipe, hret, hp]
  simp only [ha, hb]
  refine ⟨⟨by simp, ?_, by simp, ?_, ?_⟩, rfl, trivial, trivial⟩
  · intro t ht
    rw [List.mem_singleton.mp ht]
    refine ⟨⟨hid, ⟨trivial, ⟨by simp [arrowRecipe], .inl rfl⟩, trivial⟩, ?_⟩, trivial⟩
    intro h
    exfalso
    revert h
    cases render.ret <;> simp [Cache.empty, Cache.engaged, OptRV.default, OptRV.toBool]
  · intro i t hi
    cases i with
    | zero => simp at hi; subst hi; rfl
    | succ i => simp at hi
  · intro i j hi hj _
    simp at hi hj
    omega

theorem editor_start (g : Glue) (render pos load : UFn D W E S) (hp : pos.ret = .val) (hl : load.ret = .val) (name : Val D) (w : W) :
    let s := (run g (State.init w) [.mk load [.value name], .mk render [.function pos, .var 0]]).2
    s.vars[1]? = some (editorObj name render (Cache.empty render.ret) pos none load none) ∧ s.env = ⟨w, []⟩ := by
  simp [run, step, resolveAll, ArgRef.resolve, State.init, pigroLazy, ensureAll, ensureLazy, DepArg.caps, Obj.caps, ensureSelect, ensureViable, moreConstrained,
    hl, hp, detailLazy, Cache.empty, Fun.ret, editorObj, arrowObj]

end Pigro
