import Verif.Spec.Sharing
import Verif.Props.LazyA
import Verif.Props.UserLazy
/-!
# Proofs: programs with shared variables
-/
namespace Pigro
variable {D W E S O : Type} [CxxData D]

omit [CxxData D] in
theorem runTrees_uses (ts : List (Tree D W E S)) (ops : List (Op D W E S)) (h : ∀ op ∈ ops, op.uses) : runTrees ts ops = ts := by
  induction ops with
  | nil => rfl
  | cons op ops ih =>
    have h1 : stepTrees ts op = ts := by
      have := h op (by simp)
      cases op <;> simp_all [Op.uses, stepTrees]
    simp only [runTrees, List.foldl_cons, h1]
    exact ih (fun a ha => h a (by simp [ha]))

variable {g : Glue} {w : W} {prog : List (Op D W E S)}

theorem Shared.reach (s : Shared g (after g w prog)) : ∃ ops, s.1 = after g w (prog ++ ops) ∧ runTrees [] (prog ++ ops) = runTrees [] prog := by
  obtain ⟨ops, h, hs⟩ := s.2
  refine ⟨ops, ?_, ?_⟩
  · rw [hs, after, after, run_append]
  · rw [runTrees_append, runTrees_uses _ ops h]

/-- A shared variable is consistent. -/
theorem Shared.get (hs : SoundNe D) (hg : g.Retains ∨ g.Drops) (m : Meaning D W E S O) (hok : ∀ t ∈ runTrees [] prog, TreeOk g m t)
    (s : Shared g (after g w prog)) {i : Nat} {t : Tree D W E S} (ht : (runTrees [] prog)[i]? = some t) :
    ∃ o c us, s.1.vars[i]? = some o ∧ t = .lazy c us ∧ Shape t o ∧ Cons m t o := by
  obtain ⟨ops, h1, h2⟩ := s.reach
  rw [← h2] at ht
  obtain ⟨o, c, us, ho, he, hsh⟩ := vars_of_tree g w (prog ++ ops) i t ht
  have hc := reach_cons hs g hg m w (prog ++ ops) (by rw [h2]; exact hok) i t o ht ho
  exact ⟨o, c, us, by rw [h1]; exact ho, he, hsh, hc⟩

theorem Shared.call (hs : SoundNe D) (hg : g.Retains ∨ g.Drops) (m : Meaning D W E S O) (hok : ∀ t ∈ runTrees [] prog, TreeOk g m t)
    (s : Shared g (after g w prog)) {i : Nat} {t : Tree D W E S} (ht : (runTrees [] prog)[i]? = some t) :
    (s.use (.call i) trivial).1 = .ret (.ok (m.result (m.obs s.1.env.w) t)) ∧ m.obs (s.use (.call i) trivial).2.1.env.w = m.obs s.1.env.w := by
  obtain ⟨o, c, us, ho, rfl, hsh, hc⟩ := s.get hs hg m hok ht
  have hk := hok _ (List.mem_of_getElem? ht)
  obtain ⟨r, o', env', he, -, -, -, hobs, -⟩ := evalN_stepOk hs g m _ o s.1.env hsh hk.1 hk.2.1 hk.2.2 hc
  have h2 := call0_obj g c us o s.1.env hsh
  simp only [Shared.use, step_call g s.1 i o ho, call0_stepOk hs g m c us o s.1.env hsh hk hc, true_and]
  rw [h2, he]
  exact hobs

theorem Shared.poll (hs : SoundNe D) (hg : g.Retains ∨ g.Drops) (m : Meaning D W E S O) (hok : ∀ t ∈ runTrees [] prog, TreeOk g m t)
    (s : Shared g (after g w prog)) {i : Nat} {t : Tree D W E S} (ht : (runTrees [] prog)[i]? = some t) :
    ∃ r o o', s.1.vars[i]? = some o ∧ (s.use (.poll i) trivial).1 = .polled (.ok r) ∧ (s.use (.poll i) trivial).2.1.vars = s.1.vars.set i o' ∧
      r.value = m.eager (m.obs s.1.env.w) t ∧ (r.isChanged = false → o.lastVal = some r.value) ∧ m.obs (s.use (.poll i) trivial).2.1.env.w = m.obs s.1.env.w ∧
      (g.Retains → LastAll m (m.obs s.1.env.w) t o') ∧ (ReflNe D → r.isChanged = flag o.lastVal r.value) := by
  obtain ⟨o, c, us, ho, rfl, hsh, hc⟩ := s.get hs hg m hok ht
  have hk := hok _ (List.mem_of_getElem? ht)
  obtain ⟨r, o', env', he, h1, -, h3, hobs, h4, h5⟩ := evalN_stepOk hs g m _ o s.1.env hsh hk.1 hk.2.1 hk.2.2 hc
  refine ⟨r, o, o', ho, ?_, ?_, h1, h3, ?_, h4, fun hr => (h5 hr).1⟩ <;> simp only [Shared.use, step_poll g s.1 i o ho, he]
  exact hobs

/-- The same functions as parts of a program with shared variables: what they observe is the world the shared variables observe. -/
noncomputable def Meaning.beside (m : Meaning D W E S O) (g : Glue) (s0 : State D W E S) :
    Meaning D (Shared g s0) E S { o : O // ∃ s : Shared g s0, m.obs s.1.env.w = o } :=
  open Classical in
  { obs := fun s => ⟨m.obs s.1.env.w, s, rfl⟩
    fn := fun c args => if h : ∃ v, ∀ st s, (c.run st args s).1 = .ok v then h.choose else .rvoid
    leaf := fun c o => if h : ∃ v, ∀ st s, m.obs s.1.env.w = o.1 → (c.run st [] s).1 = .ok v then h.choose else .rvoid }

def Shared.start (g : Glue) (s0 : State D W E S) : Shared g s0 := ⟨s0, [], by simp, rfl⟩

theorem beside_fn (m : Meaning D W E S O) {s0 : State D W E S} (c : FnCode D (Shared g s0) E S) (st : S) (args : List (Val D)) (v : Val D)
    (h : ∀ st s, (c.run st args s).1 = .ok v) : (m.beside g s0).fn c args = v := by
  have h1 : ∃ v, ∀ st s, (c.run st args s).1 = .ok v := ⟨v, h⟩
  have h2 := (h st (Shared.start g s0)).symm.trans (h1.choose_spec st (Shared.start g s0))
  simp only [Meaning.beside, h1, dite_true]
  exact (Except.ok.inj h2).symm

theorem beside_leaf (m : Meaning D W E S O) {s0 : State D W E S} (c : FnCode D (Shared g s0) E S) (st : S) (o : { o : O // ∃ s : Shared g s0, m.obs s.1.env.w = o })
    (v : Val D) (h : ∀ st s, m.obs s.1.env.w = o.1 → (c.run st [] s).1 = .ok v) : (m.beside g s0).leaf c o = v := by
  have h1 : ∃ v, ∀ st s, m.obs s.1.env.w = o.1 → (c.run st [] s).1 = .ok v := ⟨v, h⟩
  obtain ⟨s, hs⟩ := o.2
  have h2 := (h st s hs).symm.trans (h1.choose_spec st s hs)
  simp only [Meaning.beside, h1, dite_true]
  exact (Except.ok.inj h2).symm

/-- Trees of a program with shared variables, and what is meant by them. -/
inductive InPlace (g : Glue) (s0 : State D W E S) (ts : List (Tree D W E S)) : Tree D (Shared g s0) E S → Tree D W E S → Prop
  | value (v : Val D) : InPlace g s0 ts (.value v) (.value v)
  | function (u : UFn D W E S) : InPlace g s0 ts (.function (u.beside (g := g) (s0 := s0)).toFnCode) (.function u.toFnCode)
  | shared (st : S) (i : Nat) (c : FnCode D W E S) (l : List (Tree D W E S)) : ts[i]? = some (.lazy c l) → c.ret = .val →
      InPlace g s0 ts (.function (byCall (g := g) (s0 := s0) st i).toFnCode) (.lazy c l)
  | lazy (u : UFn D W E S) (ds' : List (Tree D (Shared g s0) E S)) (ds : List (Tree D W E S)) : ds'.length = ds.length →
      (∀ (k : Nat) t' t, ds'[k]? = some t' → ds[k]? = some t → InPlace g s0 ts t' t) → InPlace g s0 ts (.lazy (u.beside (g := g) (s0 := s0)).toFnCode ds') (.lazy u.toFnCode ds)

/-- The same of lists. -/
def InPlaceL (g : Glue) (s0 : State D W E S) (ts : List (Tree D W E S)) (ds' : List (Tree D (Shared g s0) E S)) (ds : List (Tree D W E S)) : Prop :=
  ds'.length = ds.length ∧ ∀ (k : Nat) t' t, ds'[k]? = some t' → ds[k]? = some t → InPlace g s0 ts t' t

theorem fnOk_beside {m : Meaning D W E S O} {s0 : State D W E S} {u : UFn D W E S} (h : m.FnOk u.toFnCode) :
    (m.beside g s0).FnOk (u.beside (g := g) (s0 := s0)).toFnCode ∧ ∀ args, (m.beside g s0).fn (u.beside (g := g) (s0 := s0)).toFnCode args = m.fn u.toFnCode args := by
  have h1 : ∀ args, (m.beside g s0).fn (u.beside (g := g) (s0 := s0)).toFnCode args = m.fn u.toFnCode args :=
    fun args => beside_fn m _ u.st args _ (fun st s => (h st args s.1.env.w).1)
  refine ⟨fun st args s => ⟨?_, ?_⟩, h1⟩
  · rw [h1]; exact (h st args s.1.env.w).1
  · exact Subtype.ext (h st args s.1.env.w).2

theorem leafOk_beside {m : Meaning D W E S O} {s0 : State D W E S} {u : UFn D W E S} (h : m.LeafOk u.toFnCode) :
    (m.beside g s0).LeafOk (u.beside (g := g) (s0 := s0)).toFnCode ∧ ∀ o, (m.beside g s0).leaf (u.beside (g := g) (s0 := s0)).toFnCode o = m.leaf u.toFnCode o.1 := by
  have h1 : ∀ o, (m.beside g s0).leaf (u.beside (g := g) (s0 := s0)).toFnCode o = m.leaf u.toFnCode o.1 :=
    fun o => beside_leaf m _ u.st o _ (fun st s hs => by rw [← hs]; exact (h st s.1.env.w).1)
  refine ⟨fun st s => ⟨?_, ?_⟩, h1⟩
  · rw [h1]; exact (h st s.1.env.w).1
  · exact Subtype.ext (h st s.1.env.w).2

theorem leafOk_byCall (hs : SoundNe D) (hg : g.Retains ∨ g.Drops) (m : Meaning D W E S O) (hok : ∀ t ∈ runTrees [] prog, TreeOk g m t)
    (st : S) {i : Nat} {c : FnCode D W E S} {l : List (Tree D W E S)} (ht : (runTrees [] prog)[i]? = some (.lazy c l)) (hv : c.ret = .val) :
    (m.beside g (after g w prog)).LeafOk (byCall (g := g) (s0 := after g w prog) st i).toFnCode ∧
      ∀ o, (m.beside g (after g w prog)).leaf (byCall (g := g) (s0 := after g w prog) st i).toFnCode o = m.eager o.1 (.lazy c l) := by
  have h0 : ∀ (st' : S) (s : Shared g (after g w prog)), ((byCall (g := g) (s0 := after g w prog) st i).toFnCode.run st' [] s).1 = .ok (m.eager (m.obs s.1.env.w) (.lazy c l)) := by
    intro st' s
    simp only [byCall, (s.call hs hg m hok ht).1, Meaning.result, hv, if_true, Obs.returned]
  have h1 : ∀ o, (m.beside g (after g w prog)).leaf (byCall (g := g) (s0 := after g w prog) st i).toFnCode o = m.eager o.1 (.lazy c l) :=
    fun o => beside_leaf m _ st o _ (fun st s hs => by rw [← hs]; exact h0 st s)
  refine ⟨fun st' s => ⟨?_, ?_⟩, h1⟩
  · rw [h1]; exact h0 st' s
  · exact Subtype.ext (s.call hs hg m hok ht).2

theorem InPlace.eager (hs : SoundNe D) (hg : g.Retains ∨ g.Drops) (m : Meaning D W E S O) (hok : ∀ t ∈ runTrees [] prog, TreeOk g m t)
    {t' : Tree D (Shared g (after g w prog)) E S} {t : Tree D W E S} (h : InPlace g (after g w prog) (runTrees [] prog) t' t) :
    m.Ok t → (m.beside g (after g w prog)).Ok t' ∧ ∀ o, (m.beside g (after g w prog)).eager o t' = m.eager o.1 t := by
  induction h with
  | value v => exact fun _ => ⟨.value v, fun o => by rw [Meaning.eager, Meaning.eager]⟩
  | function u =>
    rintro (_ | ⟨_, hl⟩)
    obtain ⟨h1, h2⟩ := leafOk_beside (g := g) (s0 := after g w prog) hl
    exact ⟨.function _ h1, fun o => by rw [Meaning.eager, Meaning.eager, h2]; rfl⟩
  | shared st i c l ht hv =>
    intro _
    obtain ⟨h1, h2⟩ := leafOk_byCall (w := w) hs hg m hok st ht hv
    exact ⟨.function _ h1, fun o => by rw [Meaning.eager, h2]; rfl⟩
  | lazy u ds' ds hlen hds ih =>
    rintro (_ | _ | ⟨_, _, hf, hd⟩)
    obtain ⟨h1, h2⟩ := fnOk_beside (g := g) (s0 := after g w prog) hf
    have key : ∀ k (hk : k < ds'.length), (m.beside g (after g w prog)).Ok ds'[k] ∧
        ∀ o, (m.beside g (after g w prog)).eager o ds'[k] = m.eager o.1 (ds[k]'(hlen ▸ hk)) := fun k hk =>
      ih k _ _ (List.getElem?_eq_getElem hk) (List.getElem?_eq_getElem (hlen ▸ hk)) (hd _ (List.getElem_mem _))
    refine ⟨.lazy _ _ h1 ?_, fun o => ?_⟩
    · intro t ht
      obtain ⟨k, hk, rfl⟩ := List.getElem_of_mem ht
      exact (key k hk).1
    · have : ds'.map ((m.beside g (after g w prog)).eager o) = ds.map (m.eager o.1) :=
        List.ext_getElem (by simpa using hlen) fun k hk _ => by simpa using (key k (by simpa using hk)).2 o
      rw [Meaning.eager, Meaning.eager, this, h2]
      rfl

theorem InPlace.noLone (hs : SoundNe D) (hg : g.Retains ∨ g.Drops) (m : Meaning D W E S O) (hok : ∀ t ∈ runTrees [] prog, TreeOk g m t)
    {t' : Tree D (Shared g (after g w prog)) E S} {t : Tree D W E S} (h : InPlace g (after g w prog) (runTrees [] prog) t' t) :
    m.Ok t → m.NoLone t → (m.beside g (after g w prog)).NoLone t' := by
  induction h with
  | value v => exact fun _ _ => .value v
  | function u => exact fun _ _ => .function _
  | shared st i c l ht hv => exact fun _ _ => .function _
  | lazy u ds' ds hlen hds ih =>
    rintro (_ | _ | ⟨_, _, hf, hd⟩) (_ | _ | ⟨_, _, h1, h2⟩)
    refine .lazy _ _ ?_ ?_
    · rintro t rfl o vs
      obtain ⟨t1, rfl⟩ := List.length_eq_one_iff.1 hlen.symm
      rw [((hds 0 _ _ rfl rfl).eager hs hg m hok (hd _ (by simp))).2]
      exact h1 _ rfl _ _
    · intro t ht
      obtain ⟨k, hk, rfl⟩ := List.getElem_of_mem ht
      exact ih k _ _ (List.getElem?_eq_getElem hk) (List.getElem?_eq_getElem (hlen ▸ hk)) (hd _ (List.getElem_mem _)) (h2 _ (List.getElem_mem _))

theorem InPlace.noVoid {s0 : State D W E S} {ts : List (Tree D W E S)} {t' : Tree D (Shared g s0) E S} {t : Tree D W E S} (h : InPlace g s0 ts t' t) :
    t.NoVoid → t'.NoVoid := by
  induction h with
  | value v => exact fun _ => .value v
  | function u => rintro (_ | ⟨_, h⟩); exact .function _ h
  | shared st i c l ht hv => exact fun _ => .function _ rfl
  | lazy u ds' ds hlen hds ih =>
    rintro (_ | _ | ⟨_, _, h1, h2⟩)
    refine .lazy _ _ h1 ?_
    intro t ht
    obtain ⟨k, hk, rfl⟩ := List.getElem_of_mem ht
    exact ih k _ _ (List.getElem?_eq_getElem hk) (List.getElem?_eq_getElem (hlen ▸ hk)) (h2 _ (List.getElem_mem _))

theorem InPlace.ok (hs : SoundNe D) (hg : g.Retains ∨ g.Drops) (m : Meaning D W E S O) (hok : ∀ t ∈ runTrees [] prog, TreeOk g m t)
    {t' : Tree D (Shared g (after g w prog)) E S} {t : Tree D W E S} (h : InPlace g (after g w prog) (runTrees [] prog) t' t) (ht : TreeOk g m t) :
    TreeOk g (m.beside g (after g w prog)) t' :=
  ⟨(h.eager hs hg m hok ht.1).1, h.noLone hs hg m hok ht.1 ht.2.1, ht.2.2.imp id fun h1 => ⟨h1.1, h1.2.1, h1.2.2.1, h1.2.2.2.1, h.noVoid h1.2.2.2.2⟩⟩

variable {s0 : State D W E S} {ts : List (Tree D W E S)}

theorem InPlaceL.snoc {us' : List (Tree D (Shared g s0) E S)} {us : List (Tree D W E S)} (h : InPlaceL g s0 ts us' us) {t' t} (ht : InPlace g s0 ts t' t) :
    InPlaceL g s0 ts (us' ++ [t']) (us ++ [t]) := by
  refine ⟨by simp [h.1], fun k a b ha hb => ?_⟩
  rcases Nat.lt_trichotomy k us'.length with hk | hk | hk
  · rw [List.getElem?_append_left hk] at ha
    rw [List.getElem?_append_left (h.1 ▸ hk)] at hb
    exact h.2 k a b ha hb
  · subst hk
    rw [List.getElem?_concat_length] at ha
    rw [h.1, List.getElem?_concat_length] at hb
    cases ha; cases hb
    exact ht
  · rw [List.getElem?_eq_none (by simp; omega)] at ha
    cases ha

theorem InPlaceL.get {us' : List (Tree D (Shared g s0) E S)} {us : List (Tree D W E S)} (h : InPlaceL g s0 ts us' us) (i : Nat) :
    (us'[i]? = none ∧ us[i]? = none) ∨ ∃ t' t, us'[i]? = some t' ∧ us[i]? = some t ∧ InPlace g s0 ts t' t := by
  by_cases hi : i < us'.length
  · exact .inr ⟨_, _, List.getElem?_eq_getElem hi, List.getElem?_eq_getElem (h.1 ▸ hi), h.2 i _ _ (List.getElem?_eq_getElem hi) (List.getElem?_eq_getElem (h.1 ▸ hi))⟩
  · exact .inl ⟨List.getElem?_eq_none (by omega), List.getElem?_eq_none (by have := h.1; omega)⟩

theorem arg_joint {us' : List (Tree D (Shared g s0) E S)} {us : List (Tree D W E S)} (h : InPlaceL g s0 ts us' us) (st : S) (a : ShArg D W E S) (ha : a.Fits ts) :
    ((a.arg g s0 st).tree us' = none ∧ a.tree ts us = none) ∨ ∃ t' t, (a.arg g s0 st).tree us' = some t' ∧ a.tree ts us = some t ∧ InPlace g s0 ts t' t := by
  cases a with
  | value v => exact .inr ⟨_, _, rfl, rfl, .value v⟩
  | function u =>
    by_cases hu : u.ret = .void
    · exact .inl ⟨by simp [ShArg.arg, ArgRef.tree, UFn.beside, hu], by simp [ShArg.tree, hu]⟩
    · exact .inr ⟨_, _, if_neg hu, if_neg hu, .function u⟩
  | var i => exact h.get i
  | shared i =>
    obtain ⟨c, l, h1, h2⟩ := ha
    exact .inr ⟨_, _, rfl, h1, .shared st i c l h1 h2⟩

theorem args_joint {us' : List (Tree D (Shared g s0) E S)} {us : List (Tree D W E S)} (h : InPlaceL g s0 ts us' us) (st : S) :
    ∀ as : List (ShArg D W E S), (∀ a ∈ as, a.Fits ts) → (argTrees us' (as.map (ShArg.arg g s0 st)) = none ∧ shArgTrees ts us as = none) ∨
      ∃ l' l, argTrees us' (as.map (ShArg.arg g s0 st)) = some l' ∧ shArgTrees ts us as = some l ∧ InPlaceL g s0 ts l' l
  | [], _ => .inr ⟨[], [], rfl, rfl, rfl, by simp⟩
  | a :: as, ha => by
    rcases arg_joint h st a (ha a (by simp)) with ⟨h1, h2⟩ | ⟨t', t, h1, h2, h3⟩
    · exact .inl ⟨by simp [argTrees, h1], by simp [shArgTrees, h2]⟩
    · rcases args_joint h st as (fun b hb => ha b (by simp [hb])) with ⟨h4, h5⟩ | ⟨l', l, h4, h5, h6⟩
      · exact .inl ⟨by simp [argTrees, h1, h4], by simp [shArgTrees, h2, h5]⟩
      · refine .inr ⟨t' :: l', t :: l, by simp [argTrees, h1, h4], by simp [shArgTrees, h2, h5], by simp [h6.1], ?_⟩
        intro k b' b hb' hb
        cases k with
        | zero => cases hb'; cases hb; exact h3
        | succ k => exact h6.2 k b' b (by simpa using hb') (by simpa using hb)

theorem step_joint {us' : List (Tree D (Shared g s0) E S)} {us : List (Tree D W E S)} (h : InPlaceL g s0 ts us' us) (st : S) (op : ShOp D W E S) (hf : op.Fits ts) :
    InPlaceL g s0 ts (stepTrees us' (op.op g s0 st)) (shStepTrees ts us op) := by
  cases op with
  | mk f deps =>
    rcases args_joint h st deps hf with ⟨h1, h2⟩ | ⟨l', l, h1, h2, h3⟩
    · simpa [ShOp.op, stepTrees, shStepTrees, h1, h2] using h
    · simp only [ShOp.op, stepTrees, shStepTrees, h1, h2]
      exact h.snoc (.lazy f l' l h3.1 h3.2)
  | copy i =>
    rcases h.get i with ⟨h1, h2⟩ | ⟨t', t, h1, h2, h3⟩
    · simpa [ShOp.op, stepTrees, shStepTrees, h1, h2] using h
    · simp only [ShOp.op, stepTrees, shStepTrees, h1, h2]
      exact h.snoc h3
  | call i => exact h
  | poll i => exact h
  | elsewhere op ho => exact h

theorem run_joint (st : S) (ops : List (ShOp D W E S)) (hf : ∀ op ∈ ops, op.Fits ts) : ∀ {us' : List (Tree D (Shared g s0) E S)} {us : List (Tree D W E S)},
    InPlaceL g s0 ts us' us → InPlaceL g s0 ts (runTrees us' (ops.map (ShOp.op g s0 st))) (shRunTrees ts us ops) := by
  induction ops with
  | nil => exact fun h => h
  | cons op ops ih => exact fun h => ih (fun a ha => hf a (by simp [ha])) (step_joint h st op (hf op (by simp)))

/-! ### By reference -/

theorem Shared.call_poll {i : Nat} {t : Tree D W E S} (ht : (runTrees [] prog)[i]? = some t) (s : Shared g (after g w prog)) :
    (s.use (.call i) trivial).2 = (s.use (.poll i) trivial).2 := by
  obtain ⟨ops, h1, h2⟩ := s.reach
  rw [← h2] at ht
  obtain ⟨o, c, us, ho, rfl, hsh⟩ := vars_of_tree g w (prog ++ ops) i t ht
  replace ho : s.1.vars[i]? = some o := by rw [h1]; exact ho
  have := call0_obj g c us o s.1.env hsh
  apply Subtype.ext
  show (step g s.1 (.call i)).2 = (step g s.1 (.poll i)).2
  simp only [step_call g s.1 i o ho, step_poll g s.1 i o ho, this]

/-- The value a shared variable returned last. -/
def Shared.last (s : Shared g s0) (i : Nat) : Option (Val D) := (s.1.vars[i]?).bind Obj.lastVal

/-- Its value now. -/
def Meaning.nowOf (m : Meaning D W E S O) (ts : List (Tree D W E S)) (o : O) (i : Nat) : Option (Val D) := (ts[i]?).map (m.eager o)

theorem Shared.poll_last (hs : SoundNe D) (hg : g.Retains) (m : Meaning D W E S O) (hok : ∀ t ∈ runTrees [] prog, TreeOk g m t)
    (s : Shared g (after g w prog)) {i : Nat} {t : Tree D W E S} (ht : (runTrees [] prog)[i]? = some t) :
    ∃ ch, (s.use (.poll i) trivial).1.referred = .ok (m.eager (m.obs s.1.env.w) t, ch) ∧ m.obs (s.use (.poll i) trivial).2.1.env.w = m.obs s.1.env.w ∧
      (ch = false → s.last i = m.nowOf (runTrees [] prog) (m.obs s.1.env.w) i) ∧
      (ReflNe D → s.last i = m.nowOf (runTrees [] prog) (m.obs s.1.env.w) i → ch = false) ∧
      (s.use (.poll i) trivial).2.last i = m.nowOf (runTrees [] prog) (m.obs s.1.env.w) i ∧ ∀ j, j ≠ i → (s.use (.poll i) trivial).2.last j = s.last j := by
  obtain ⟨r, o, o', h1, h2, h3, h4, h5, h6, h7, h8⟩ := s.poll hs (.inl hg) m hok ht
  have hlt := (List.getElem?_eq_some_iff.1 h1).1
  refine ⟨r.isChanged, by rw [h2, Obs.referred, h4], h6, ?_, ?_, ?_, ?_⟩
  · intro h; simp [Shared.last, Meaning.nowOf, h1, ht, h5 h, h4]
  · intro hr h
    simp only [Shared.last, Meaning.nowOf, h1, ht, Option.bind_some, Option.map_some] at h
    rw [h8 hr, h, h4, flag, Val.ne_refl hr]
  · simp [Shared.last, Meaning.nowOf, h3, ht, hlt, (h7 hg).lastVal]
  · intro j hj
    simp [Shared.last, h3, List.getElem?_set_ne (Ne.symm hj)]

/-- One after the other, of any list, with repetitions. -/
theorem poll_refs (hs : SoundNe D) (hg : g.Retains) (m : Meaning D W E S O) (hok : ∀ t ∈ runTrees [] prog, TreeOk g m t) (st : S) :
    ∀ (is : List Nat), (∀ i ∈ is, ∃ t, (runTrees [] prog)[i]? = some t) → ∀ s : Shared g (after g w prog),
    ∃ rs s', pollUsers (is.map (byRef st)) s = (.ok rs, is.map (byRef st), s') ∧ rs.map (fun r => some r.1) = is.map (m.nowOf (runTrees [] prog) (m.obs s.1.env.w)) ∧
      m.obs s'.1.env.w = m.obs s.1.env.w ∧ (rs.any (·.2) = false → ∀ j ∈ is, s.last j = m.nowOf (runTrees [] prog) (m.obs s.1.env.w) j) ∧
      (ReflNe D → (∀ j ∈ is, s.last j = m.nowOf (runTrees [] prog) (m.obs s.1.env.w) j) → rs.any (·.2) = false) ∧
      (∀ j ∈ is, s'.last j = m.nowOf (runTrees [] prog) (m.obs s.1.env.w) j) ∧ ∀ j, j ∉ is → s'.last j = s.last j
  | [], _, s => ⟨[], s, rfl, rfl, rfl, by simp, by simp, by simp, by simp⟩
  | i :: is, hi, s => by
    obtain ⟨t, ht⟩ := hi i (by simp)
    obtain ⟨ch, h1, h2, h3, h4, h5, h6⟩ := s.poll_last hs hg m hok ht
    obtain ⟨rs, s', i1, i2, i3, i4, i5, i6, i7⟩ := poll_refs hs hg m hok st is (fun j hj => hi j (by simp [hj])) (s.use (.poll i) trivial).2
    rw [h2] at i2 i3 i4 i5 i6
    have hrun : (byRef (g := g) (s0 := after g w prog) st i).run st s = (.ok (m.eager (m.obs s.1.env.w) t, ch), st, (s.use (.poll i) trivial).2) := by
      simp only [byRef, h1]
    refine ⟨(m.eager (m.obs s.1.env.w) t, ch) :: rs, s', ?_, ?_, i3, ?_, ?_, ?_, ?_⟩
    · have hst : (byRef (g := g) (s0 := after g w prog) st i).st = st := rfl
      simp only [List.map_cons, pollUsers, hst, hrun, i1]
      rfl
    · rw [List.map_cons, i2, List.map_cons]
      simp [Meaning.nowOf, ht]
    · intro h j hj
      simp only [List.any_cons, Bool.or_eq_false_iff] at h
      by_cases hji : j = i
      · rw [hji]; exact h3 h.1
      · rw [← h6 j hji]
        exact i4 h.2 j (by simpa [hji] using hj)
    · intro hr h
      simp only [List.any_cons, Bool.or_eq_false_iff]
      refine ⟨h4 hr (h i (by simp)), i5 hr fun j hj => ?_⟩
      by_cases hji : j = i
      · rw [hji]; exact h5
      · rw [h6 j hji]; exact h j (by simp [hj])
    · intro j hj
      by_cases hjs : j ∈ is
      · exact i6 j hjs
      · have hji : j = i := by simpa [hjs] using hj
        rw [i7 j hjs, hji]; exact h5
    · intro j hj
      simp only [List.mem_cons, not_or] at hj
      rw [i7 j hj.2, h6 j hj.1]

/-- What others do, as a change of the shared variables. -/
def asElse : Option (Use D W E S) → Option (Shared g s0 → Shared g s0)
  | none => none
  | some op => some fun s => (s.use op.1 op.2).2

/-- What others do. -/
def Shared.elsewhere (s : Shared g s0) (l : List (Use D W E S)) : Shared g s0 := l.foldl (fun s op => (s.use op.1 op.2).2) s

theorem calls_last (hs : SoundNe D) (hg : g.Retains) (m : Meaning D W E S O) (hok : ∀ t ∈ runTrees [] prog, TreeOk g m t) :
    ∀ (is : List Nat), (∀ i ∈ is, ∃ t, (runTrees [] prog)[i]? = some t) → ∀ s : Shared g (after g w prog),
      m.obs (s.elsewhere (is.map fun i => Use.call i)).1.env.w = m.obs s.1.env.w ∧
      (∀ j ∈ is, (s.elsewhere (is.map fun i => Use.call i)).last j = m.nowOf (runTrees [] prog) (m.obs s.1.env.w) j) ∧
      ∀ j, j ∉ is → (s.elsewhere (is.map fun i => Use.call i)).last j = s.last j
  | [], _, s => ⟨rfl, by simp, fun _ _ => rfl⟩
  | i :: is, hi, s => by
    obtain ⟨t, ht⟩ := hi i (by simp)
    obtain ⟨ch, h1, h2, h3, h4, h5, h6⟩ := s.poll_last hs hg m hok ht
    rw [← s.call_poll ht] at h2 h5 h6
    obtain ⟨i1, i2, i3⟩ := calls_last hs hg m hok is (fun j hj => hi j (by simp [hj])) (s.use (.call i) trivial).2
    rw [h2] at i1 i2
    simp only [Shared.elsewhere, List.map_cons, List.foldl_cons] at i1 i2 i3 ⊢
    refine ⟨i1, fun j hj => ?_, fun j hj => ?_⟩
    · by_cases hjs : j ∈ is
      · exact i2 j hjs
      · have hji : j = i := by simpa [hjs] using hj
        exact (i3 j hjs).trans (by rw [hji]; exact h5)
    · simp only [List.mem_cons, not_or] at hj
      exact (i3 j hj.2).trans (h6 j hj.1)

/-- The lazy function of `std::ref(x_i)...` in a program. -/
structure RefInv (g : Glue) (s0 : State D W E S) (f : UFn D W E S) (st : S) (is : List Nat) (x : Watch D (Shared g s0) E S) : Prop where
  code : x.f.toFnCode = (f.beside (g := g) (s0 := s0)).toFnCode
  deps : x.ls = is.map (byRef st)

theorem ref_call (hs : SoundNe D) (hg : g.Retains) (m : Meaning D W E S O) (hok : ∀ t ∈ runTrees [] prog, TreeOk g m t) {f : UFn D W E S} (hf : m.FnOk f.toFnCode)
    {st : S} {is : List Nat} (his : ∀ i ∈ is, ∃ t, (runTrees [] prog)[i]? = some t) {x : Watch D (Shared g (after g w prog)) E S}
    (hx : RefInv g (after g w prog) f st is x) (s : Shared g (after g w prog)) :
    ∃ v, (x.call s).1 = .ok v ∧ (x.call s).2.1.last = some v ∧ RefInv g (after g w prog) f st is (x.call s).2.1 ∧
      m.obs (x.call s).2.2.1.env.w = m.obs s.1.env.w ∧ (∀ j ∈ is, (x.call s).2.2.last j = m.nowOf (runTrees [] prog) (m.obs s.1.env.w) j) ∧
      ((∃ vs, is.map (m.nowOf (runTrees [] prog) (m.obs s.1.env.w)) = vs.map some ∧ v = m.fn f.toFnCode vs) ∨
        x.last = some v ∧ ∀ j ∈ is, s.last j = m.nowOf (runTrees [] prog) (m.obs s.1.env.w) j) ∧
      (ReflNe D → (∀ j ∈ is, s.last j = m.nowOf (runTrees [] prog) (m.obs s.1.env.w) j) → ∀ v0, x.last = some v0 → v = v0) := by
  obtain ⟨rs, s', h1, h2, h3, h4, h5, h6, -⟩ := poll_refs hs hg m hok st is his s
  have hrun : ∃ st' s'', x.f.run x.f.st (rs.map (·.1)) s' = (.ok (m.fn f.toFnCode (rs.map (·.1))), st', s'') ∧ m.obs s''.1.env.w = m.obs s'.1.env.w ∧ s''.1.vars = s'.1.vars := by
    rw [hx.code]
    have := hf x.f.st (rs.map (·.1)) s'.1.env.w
    refine ⟨(f.run x.f.st (rs.map Prod.fst) s'.1.env.w).2.1, (s'.use (.poke fun _ => (f.run x.f.st (rs.map Prod.fst) s'.1.env.w).2.2) trivial).2, ?_, this.2, rfl⟩
    simp only [UFn.beside, this.1]
  obtain ⟨st', s'', r1, r2, r3⟩ := hrun
  have hv2 : is.map (m.nowOf (runTrees [] prog) (m.obs s.1.env.w)) = (rs.map (·.1)).map some := by rw [← h2]; simp
  have hl : ∀ j, s''.last j = s'.last j := fun j => by simp [Shared.last, r3]
  by_cases hc : x.last = none ∨ rs.any (·.2) = true
  · have hcall : x.call s = (.ok (m.fn f.toFnCode (rs.map (·.1))), ⟨{ x.f with st := st' }, is.map (byRef st), some (m.fn f.toFnCode (rs.map (·.1)))⟩, s'') := by
      simp only [Watch.call, hx.deps, h1]
      rcases hc with hc | hc
      · simp only [hc, r1]
      · cases x.last <;> simp only [hc, r1]
    rw [hcall]
    refine ⟨_, rfl, rfl, ⟨hx.code, rfl⟩, by rw [r2, h3], fun j hj => by rw [hl]; exact h6 j hj, .inl ⟨_, hv2, rfl⟩, ?_⟩
    intro hr hlast v0 h0
    rcases hc with hc | hc
    · rw [hc] at h0; cases h0
    · rw [h5 hr hlast] at hc; cases hc
  · obtain ⟨v, hv⟩ : ∃ v, x.last = some v := by
      rcases h : x.last with _ | v
      · exact absurd (.inl h) hc
      · exact ⟨v, rfl⟩
    have hn : rs.any (·.2) = false := by
      rw [← Bool.not_eq_true]; exact fun h => hc (.inr h)
    have hcall : x.call s = (.ok v, ⟨x.f, is.map (byRef st), x.last⟩, s') := by
      simp only [Watch.call, hx.deps, h1, hv, hn]
    rw [hcall]
    exact ⟨v, rfl, hv, ⟨hx.code, rfl⟩, h3, h6, .inr ⟨hv, h4 hn⟩, fun _ _ v0 h0 => by rw [hv] at h0; exact Option.some.inj h0⟩

omit [CxxData D] in
theorem Watch.run_append {W' : Type} : ∀ (l l' : List (Option (W' → W'))) (x : Watch D W' E S) (w : W'),
    x.run w (l ++ l') = ((x.run w l).1 ++ ((x.run w l).2.1.run (x.run w l).2.2 l').1, ((x.run w l).2.1.run (x.run w l).2.2 l').2)
  | [], l', x, w => rfl
  | some h :: l, l', x, w => by simp [Watch.run, Watch.run_append l l']
  | none :: l, l', x, w => by simp [Watch.run, Watch.run_append l l']

theorem watch_run_rel (g : Glue) (hg : g.Retains) (hv : g.resultByRef = false) (hr : g.regParamByValue = false) {W' : Type} (l : List (Option (W' → W'))) :
    ∀ (x : Watch D W' E S) (s : XState D W' E S), (∃ o, s.vars = [o] ∧ x.Rel o) → NoTupleAlone (x.ls.map LFn.toLCode) →
      (∃ o, (xrun g s (l.map watchOp)).2.vars = [o] ∧ (x.run s.env.w l).2.1.Rel o) ∧ (xrun g s (l.map watchOp)).2.env.w = (x.run s.env.w l).2.2 ∧
        NoTupleAlone ((x.run s.env.w l).2.1.ls.map LFn.toLCode) := by
  induction l with
  | nil => intro x s h hl; exact ⟨h, rfl, hl⟩
  | cons a l ih =>
    rintro x s ⟨o, hs, ho⟩ hlone
    cases a with
    | some h => exact ih x (xstep g s (.poke h)).2 ⟨o, hs, ho⟩ hlone
    | none =>
      obtain ⟨h1, h2, h3, h4, h5⟩ := watch_call g hg hv hr x o s.env ho hlone
      have := ih (x.call s.env.w).2.1 (xstep g s (.call 0)).2 ⟨(callX g o s.env).2.1, by simp [xstep, hs], h2⟩ (by rw [h4]; exact hlone)
      have he : (xstep g s (.call 0)).2.env.w = (x.call s.env.w).2.2 := by simpa [xstep, hs] using h3
      rw [he] at this
      exact this

theorem noTupleAlone_refs (hs : SoundNe D) (hg : g.Retains) (m : Meaning D W E S O) (hok : ∀ t ∈ runTrees [] prog, TreeOk g m t) (st : S) (is : List Nat)
    (his : ∀ i ∈ is, ∃ t, (runTrees [] prog)[i]? = some t) (hl : ∀ i t, is = [i] → (runTrees [] prog)[i]? = some t → ∀ o vs, m.eager o t ≠ .tup vs) :
    NoTupleAlone ((is.map (byRef (g := g) (s0 := after g w prog) st)).map LFn.toLCode) := by
  intro c hc st' s v ch h xs hxs
  rcases is with _ | ⟨i, _ | ⟨j, is⟩⟩ <;> simp only [List.map_cons, List.map_nil, List.cons.injEq, and_true, reduceCtorEq, and_false] at hc
  subst hc
  obtain ⟨t, ht⟩ := his i (by simp)
  obtain ⟨ch', h1, -⟩ := s.poll_last hs hg m hok ht
  simp only [byRef, h1, Except.ok.injEq, Prod.mk.injEq] at h
  exact hl i t rfl ht _ _ (h.1.trans hxs)

theorem InPlace.result (hs : SoundNe D) (hg : g.Retains ∨ g.Drops) (m : Meaning D W E S O) (hok : ∀ t ∈ runTrees [] prog, TreeOk g m t)
    {t' : Tree D (Shared g (after g w prog)) E S} {t : Tree D W E S} (h : InPlace g (after g w prog) (runTrees [] prog) t' t) (ht : m.Ok t) (s : Shared g (after g w prog)) :
    (m.beside g (after g w prog)).result ((m.beside g (after g w prog)).obs s) t' = m.result (m.obs s.1.env.w) t := by
  have h1 := (h.eager hs hg m hok ht).2 ((m.beside g (after g w prog)).obs s)
  cases h with
  | value v => exact congrArg some h1
  | function u => exact congrArg some h1
  | shared st i c l hi hv => simp only [Meaning.result, h1, hv, if_true]; rfl
  | lazy u ds' ds hlen hds => simp only [Meaning.result, h1]; rfl

theorem Shared.none (s : Shared g (after g w prog)) {j : Nat} (hj : (runTrees [] prog)[j]? = none) : s.1.vars[j]? = none := by
  obtain ⟨ops, h1, h2⟩ := s.reach
  have hlen := (reach_inv g w (prog ++ ops)).shape.length
  rw [h2] at hlen
  rw [h1]
  rw [List.getElem?_eq_none_iff] at hj ⊢
  show (run g (State.init w) (prog ++ ops)).2.vars.length ≤ j
  omega

/-- Quiet use leaves the last values where they are. -/
theorem quiet_last (hs : SoundNe D) (hg : g.Retains) (m : Meaning D W E S O) (hok : ∀ t ∈ runTrees [] prog, TreeOk g m t) {i : Nat} {t : Tree D W E S}
    (ht : (runTrees [] prog)[i]? = some t) (s : Shared g (after g w prog)) (op : Op D W E S) (hu : op.uses) (hq : op.quiet m)
    {o : Obj D W E S} (ho : s.1.vars[i]? = some o) (hl : LastAll m (m.obs s.1.env.w) t o) :
    ∃ o', (s.use op hu).2.1.vars[i]? = some o' ∧ LastAll m (m.obs (s.use op hu).2.1.env.w) t o' ∧ m.obs (s.use op hu).2.1.env.w = m.obs s.1.env.w := by
  have hlt := (List.getElem?_eq_some_iff.1 ho).1
  have key : ∀ j, ∃ o', (s.use (.poll j) trivial).2.1.vars[i]? = some o' ∧ LastAll m (m.obs (s.use (.poll j) trivial).2.1.env.w) t o' ∧
      m.obs (s.use (.poll j) trivial).2.1.env.w = m.obs s.1.env.w := by
    intro j
    rcases hj : (runTrees [] prog)[j]? with _ | tj
    · have hn : s.1.vars[j]? = none := s.none hj
      have : (s.use (.poll j) trivial).2 = s := Subtype.ext (by simp [Shared.use, step, hn])
      rw [this]
      exact ⟨o, ho, hl, rfl⟩
    · obtain ⟨r, oj, oj', a1, a2, a3, a4, a5, a6, a7, -⟩ := s.poll hs (.inl hg) m hok hj
      rw [a3, a6]
      by_cases hji : j = i
      · subst hji
        rw [ht] at hj; cases hj
        exact ⟨oj', by simp [hlt], a7 hg, rfl⟩
      · exact ⟨o, by rw [List.getElem?_set_ne hji]; exact ho, hl, rfl⟩
  cases op with
  | mk f d => cases hu
  | copy j => cases hu
  | poke h =>
    have : m.obs (s.use (.poke h) hu).2.1.env.w = m.obs s.1.env.w := hq s.1.env.w
    exact ⟨o, ho, by rw [this]; exact hl, this⟩
  | poll j => exact key j
  | call j =>
    rcases hj : (runTrees [] prog)[j]? with _ | tj
    · have hn : s.1.vars[j]? = none := s.none hj
      have : (s.use (.call j) trivial).2 = s := Subtype.ext (by simp [Shared.use, step, hn])
      rw [this]
      exact ⟨o, ho, hl, rfl⟩
    · rw [s.call_poll hj]; exact key j

theorem recalc_self (hr : ReflNe D) (m : Meaning D W E S O) (o : O) : ∀ t : Tree D W E S, m.recalc o o t = []
  | .value _ => by rw [Meaning.recalc]
  | .function _ => by rw [Meaning.recalc]
  | .lazy c deps => by
    rw [Meaning.recalc]
    have h1 : (deps.map (m.recalc o o)).flatten = [] := by
      rw [List.flatten_eq_nil_iff]
      intro l hl
      obtain ⟨d, hd, rfl⟩ := List.mem_map.1 hl
      exact recalc_self hr m o d
    have h2 : (deps.map fun d => Val.ne (m.eager o d) (m.eager o d)).any id = false := by
      simp [Val.ne_refl hr]
    rw [h1, h2]
    simp

theorem map_some_inj {α : Type} {a b : List α} (h : a.map some = b.map some) : a = b :=
  (List.map_inj_right (fun _ _ h => Option.some.inj h)).1 h

omit [CxxData D] in
theorem refs_exist {is : List Nat} {us : List (Tree D W E S)} (hus : is.map (fun i => ts[i]?) = us.map some) : ∀ i ∈ is, ∃ t, ts[i]? = some t := by
  intro i hi
  have : ts[i]? ∈ is.map (fun i => ts[i]?) := List.mem_map_of_mem hi
  rw [hus] at this
  obtain ⟨t, -, ht⟩ := List.mem_map.1 this
  exact ⟨t, ht.symm⟩

omit [CxxData D] in
theorem refs_now (m : Meaning D W E S O) {is : List Nat} {us : List (Tree D W E S)} (hus : is.map (fun i => ts[i]?) = us.map some) (o : O) :
    is.map (m.nowOf ts o) = (us.map (m.eager o)).map some := by
  have h1 : is.map (m.nowOf ts o) = (is.map (fun i => ts[i]?)).map (Option.map (m.eager o)) := by simp [Meaning.nowOf, Function.comp_def]
  rw [h1, hus]
  simp

omit [CxxData D] in
theorem refs_lone {m : Meaning D W E S O} {c : FnCode D W E S} {is : List Nat} {us : List (Tree D W E S)} (hus : is.map (fun i => ts[i]?) = us.map some)
    (h : m.NoLone (.lazy c us)) : ∀ i t, is = [i] → ts[i]? = some t → ∀ o vs, m.eager o t ≠ .tup vs := by
  rintro i t rfl ht
  cases h with
  | lazy _ _ h1 _ =>
    rcases us with _ | ⟨u, _ | ⟨u', us⟩⟩ <;> simp [ht] at hus
    subst hus
    exact h1 t rfl

end Pigro
