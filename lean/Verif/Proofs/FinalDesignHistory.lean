import Verif.Proofs.FinalDesign
import Verif.Proofs.LazyMore
/-!
# The documented design over whole programs, alone and beside the library
-/
namespace Pigro
variable {D W E S O : Type} [CxxData D]

/-! ### Construction -/

/-- Variables of the documented design that belong to the trees. -/
structure FInv (m : Meaning D W E S O) (ts : List (Tree D W E S)) (f : FState D W E S) : Prop where
  len : f.vars.length = ts.length
  good : ∀ (i : Nat) t, ts[i]? = some t → ∃ x, f.vars[i]? = some (t.fty, x) ∧ GoodF m t x

theorem ensureF_none {ts : List (Tree D W E S)} {vars : List (FObj D W E S)} (hl : vars.length = ts.length) (a : ArgRef D W E S) (h : a.tree ts = none) :
    ensureF vars a = none := by
  cases a with
  | value v => simp [ArgRef.tree] at h
  | function u =>
    simp only [ArgRef.tree] at h
    split at h
    · rename_i hv; simp [ensureF, hv]
    · cases h
  | var i =>
    simp only [ArgRef.tree, List.getElem?_eq_none_iff] at h
    simp only [ensureF, List.getElem?_eq_none_iff]
    omega

theorem ensureAllF_none {ts : List (Tree D W E S)} {vars : List (FObj D W E S)} (hl : vars.length = ts.length) :
    ∀ as : List (ArgRef D W E S), argTrees ts as = none → ensureAllF vars as = none
  | [], h => by simp [argTrees] at h
  | a :: as, h => by
    rw [argTrees] at h
    rcases ha : a.tree ts with _ | t
    · simp [ensureAllF, ensureF_none hl a ha]
    · rcases hb : argTrees ts as with _ | us
      · rw [ensureAllF, ensureAllF_none hl as hb]
        split
        · rename_i h; cases h
        · rfl
      · simp [ha, hb] at h

theorem ensureF_some {m : Meaning D W E S O} {ts : List (Tree D W E S)} {f : FState D W E S} (hi : FInv m ts f) (a : ArgRef D W E S) (t : Tree D W E S)
    (h : a.tree ts = some t) (hv : t.NoVoid) : ∃ x, ensureF f.vars a = some (t.fty, x) ∧ GoodF m t x := by
  cases a with
  | value v =>
    simp only [ArgRef.tree, Option.some.injEq] at h
    subst h
    exact ⟨.value v false, by simp [ensureF, Tree.fty], by simp [GoodF]⟩
  | function u =>
    simp only [ArgRef.tree] at h
    split at h
    · cases h
    · simp only [Option.some.injEq] at h
      subst h
      have hr : u.ret = .val := by cases hv; assumption
      refine ⟨.core u.st none [.value (.data CxxData.zero) true], by simp [ensureF, Tree.fty, hr, facadeF, lazyCoreF], ?_⟩
      simp only [GoodF]
      exact ⟨hr, _, _, rfl⟩
  | var i => exact hi.good i t h

theorem ensureAllF_some {m : Meaning D W E S O} {ts : List (Tree D W E S)} {f : FState D W E S} (hi : FInv m ts f) :
    ∀ (as : List (ArgRef D W E S)) us, argTrees ts as = some us → (∀ t ∈ us, t.NoVoid) →
      ∃ xs, ensureAllF f.vars as = some xs ∧ xs.map (·.1) = us.map Tree.fty ∧ GoodFL m us (xs.map (·.2))
  | [], us, h, _ => by
    simp only [argTrees, Option.some.injEq] at h
    subst h
    exact ⟨[], by simp [ensureAllF], rfl, by simp [GoodFL]⟩
  | a :: as, us, h, hv => by
    rw [argTrees] at h
    rcases ha : a.tree ts with _ | t
    · simp [ha] at h
    rcases hb : argTrees ts as with _ | us'
    · simp [ha, hb] at h
    simp only [ha, hb, Option.some.injEq] at h
    subst h
    obtain ⟨x, h1, h2⟩ := ensureF_some hi a t ha (hv t (by simp))
    obtain ⟨xs, h3, h4, h5⟩ := ensureAllF_some hi as us' hb (fun t ht => hv t (by simp [ht]))
    refine ⟨(t.fty, x) :: xs, by simp [ensureAllF, h1, h3], by simp [h4], ?_⟩
    simp only [GoodFL, List.map_cons]
    exact ⟨_, _, rfl, h2, h5⟩

theorem FInv.append {m : Meaning D W E S O} {ts : List (Tree D W E S)} {f : FState D W E S} (hi : FInv m ts f) (t : Tree D W E S) (x : FSt D S)
    (hx : GoodF m t x) : FInv m (ts ++ [t]) { f with vars := f.vars ++ [(t.fty, x)] } := by
  refine ⟨by simp [hi.len], fun i u hu => ?_⟩
  rw [List.getElem?_append] at hu
  split at hu
  · rename_i h
    obtain ⟨y, h1, h2⟩ := hi.good i u hu
    exact ⟨y, by rw [List.getElem?_append_left (by rw [hi.len]; exact h)]; exact h1, h2⟩
  · rename_i h
    rcases Nat.eq_zero_or_pos (i - ts.length) with h0 | h0
    · simp only [h0, List.getElem?_cons_zero, Option.some.injEq] at hu
      subst hu
      refine ⟨x, ?_, hx⟩
      rw [List.getElem?_append_right (by rw [hi.len]; omega), hi.len, h0]
      rfl
    · rw [List.getElem?_eq_none (by simp; omega)] at hu
      cases hu

theorem FInv.set {m : Meaning D W E S O} {ts : List (Tree D W E S)} {f : FState D W E S} (hi : FInv m ts f) (i : Nat) (t : Tree D W E S) (x : FSt D S)
    (env : Env D W S) (ht : ts[i]? = some t) (hx : GoodF m t x) : FInv m ts { vars := f.vars.set i (t.fty, x), env := env } := by
  refine ⟨by simp [hi.len], fun j u hu => ?_⟩
  obtain ⟨y, h1, h2⟩ := hi.good j u hu
  by_cases hj : i = j
  · subst hj
    rw [ht] at hu
    cases hu
    exact ⟨x, set_get _ _ _ _ h1, hx⟩
  · exact ⟨y, by simp only [List.getElem?_set_ne hj]; exact h1, h2⟩

theorem FInv.get {m : Meaning D W E S O} {ts : List (Tree D W E S)} {f : FState D W E S} (hi : FInv m ts f) (i : Nat) (o : FObj D W E S)
    (h : f.vars[i]? = some o) : ∃ t, ts[i]? = some t ∧ o.1 = t.fty ∧ GoodF m t o.2 := by
  obtain ⟨h2, _⟩ := List.getElem?_eq_some_iff.1 h
  have ht : ts[i]? = some (ts[i]'(by rw [← hi.len]; exact h2)) := List.getElem?_eq_getElem _
  obtain ⟨x, h3, h4⟩ := hi.good i _ ht
  rw [h] at h3
  cases h3
  exact ⟨_, ht, rfl, h4⟩

theorem FInv.none {m : Meaning D W E S O} {ts : List (Tree D W E S)} {f : FState D W E S} (hi : FInv m ts f) (i : Nat) :
    f.vars[i]? = none ↔ ts[i]? = none := by
  rw [List.getElem?_eq_none_iff, List.getElem?_eq_none_iff, hi.len]

/-! ### One operation -/

theorem lazyF_good {m : Meaning D W E S O} (f : UFn D W E S) {us : List (Tree D W E S)} {xs : List (FObj D W E S)} (hr : f.ret = .val)
    (h1 : xs.map (·.1) = us.map Tree.fty) (h2 : GoodFL m us (xs.map (·.2))) :
    lazyF f xs = ((Tree.lazy f.toFnCode us).fty, .core f.st none (xs.map (·.2))) ∧
    GoodF m (.lazy f.toFnCode us) (.core f.st none (xs.map (·.2))) := by
  refine ⟨by simp [lazyF, facadeF, lazyCoreF, Tree.fty, h1], ?_⟩
  simp only [GoodF]
  exact ⟨hr, _, _, _, rfl, by intro v hv; simp at hv, h2⟩

/-- The invariant is kept. -/
theorem fstep_inv (hs : SoundNe D) (m : Meaning D W E S O) {ts : List (Tree D W E S)} {f : FState D W E S} (hi : FInv m ts f) (op : Op D W E S)
    (hok : ∀ t ∈ stepTrees ts op, m.Ok t ∧ t.NoVoid) : FInv m (stepTrees ts op) (fstep f op).2 := by
  cases op with
  | mk u deps =>
    simp only [stepTrees, fstep] at hok ⊢
    rcases ha : argTrees ts deps with _ | us
    · rw [ensureAllF_none hi.len deps ha]
      simpa using hi
    · rw [ha] at hok
      obtain ⟨_, hv⟩ := hok (.lazy u.toFnCode us) (by simp)
      have hr : u.ret = .val := by cases hv; assumption
      obtain ⟨xs, h1, h2, h3⟩ := ensureAllF_some hi deps us ha (by cases hv; assumption)
      obtain ⟨h4, h5⟩ := lazyF_good u hr h2 h3
      simp only [hr, if_true, h1, h4]
      exact hi.append _ _ h5
  | copy i =>
    simp only [stepTrees, fstep]
    rcases ht : ts[i]? with _ | t
    · rw [(hi.none i).2 ht]
      exact hi
    · obtain ⟨x, h1, h2⟩ := hi.good i t ht
      rw [h1]
      exact hi.append _ _ h2
  | call i =>
    simp only [stepTrees, fstep] at hok ⊢
    rcases ho : f.vars[i]? with _ | o
    · exact hi
    · obtain ⟨t, ht, h1, h2⟩ := hi.get i o ho
      obtain ⟨ch, s', env', e1, _, _, e4, _⟩ := evalF_ok hs m t o.2 f.env (hok t (List.mem_of_getElem? ht)).1 h2
      simp only [h1, e1]
      exact hi.set i t s' env' ht e4
  | poll i =>
    simp only [stepTrees, fstep] at hok ⊢
    rcases ho : f.vars[i]? with _ | o
    · exact hi
    · obtain ⟨t, ht, h1, h2⟩ := hi.get i o ho
      obtain ⟨ch, s', env', e1, _, _, e4, _⟩ := evalF_ok hs m t o.2 f.env (hok t (List.mem_of_getElem? ht)).1 h2
      simp only [h1, e1]
      exact hi.set i t s' env' ht e4
  | poke h => exact ⟨hi.len, hi.good⟩

theorem frun_inv (hs : SoundNe D) (m : Meaning D W E S O) : ∀ (ops : List (Op D W E S)) {ts : List (Tree D W E S)} {f : FState D W E S}, FInv m ts f →
    (∀ t ∈ runTrees ts ops, m.Ok t ∧ t.NoVoid) → FInv m (runTrees ts ops) (frun f ops).2
  | [], _, _, hi, _ => hi
  | op :: ops, ts, f, hi, hok => by
    have : runTrees ts (op :: ops) = runTrees (stepTrees ts op) ops := rfl
    rw [this] at hok ⊢
    exact frun_inv hs m ops (fstep_inv hs m hi op (fun t ht => hok t ((runTrees_prefix ops _).subset ht))) hok

theorem FInv.init (m : Meaning D W E S O) (w : W) : FInv m [] (FState.init w : FState D W E S) := ⟨rfl, by simp⟩

theorem frun_append (a b : List (Op D W E S)) : ∀ s : FState D W E S,
    frun s (a ++ b) = ((frun s a).1 ++ (frun (frun s a).2 b).1, (frun (frun s a).2 b).2) := by
  induction a with
  | nil => intro s; rfl
  | cons op a ih => intro s; simp [frun, ih]

/-- Other operations leave an object alone, and poll nothing. -/
theorem fstep_frame (f : FState D W E S) (op : Op D W E S) (i : Nat) (o : FObj D W E S) (h : f.vars[i]? = some o) (hn : op.evaluates i = false) :
    (fstep f op).2.vars[i]? = some o := by
  have happ : ∀ x, (f.vars ++ [x])[i]? = some o := by
    intro x
    rw [List.getElem?_append_left (List.getElem?_eq_some_iff.1 h).1]
    exact h
  cases op with
  | mk u deps => simp only [fstep]; split <;> simp only [happ, h]
  | copy j => simp only [fstep]; split <;> simp only [happ, h]
  | call j =>
    have hj : j ≠ i := by simpa [Op.evaluates] using hn
    simp only [fstep]
    split
    · simp only [List.getElem?_set_ne hj]; exact h
    · exact h
  | poll j =>
    have hj : j ≠ i := by simpa [Op.evaluates] using hn
    simp only [fstep]
    split
    · simp only [List.getElem?_set_ne hj]; exact h
    · exact h
  | poke q => exact h

theorem frun_frame (i : Nat) (o : FObj D W E S) : ∀ (ops : List (Op D W E S)) (f : FState D W E S), f.vars[i]? = some o →
    (∀ op ∈ ops, op.evaluates i = false) → (frun f ops).2.vars[i]? = some o
  | [], _, h, _ => h
  | op :: ops, f, h, hn => frun_frame i o ops _ (fstep_frame f op i o h (hn op (by simp))) (fun q hq => hn q (by simp [hq]))

/-! ### Beside the library -/

mutual
/-- The two designs remember the same values. -/
def SameLast : Tree D W E S → Obj D W E S → FSt D S → Prop
  | .lazy _ ts, o, s => ∃ f cache ds st fc fds, o = .unregularized (.unwrapped (.core f cache ds)) ∧ s = .core st fc fds ∧ cache.val? = fc ∧ SameLastL ts ds fds
  | _, o, s => o.lastVal = s.lastVal
/-- Element-wise. -/
def SameLastL : List (Tree D W E S) → List (Obj D W E S) → List (FSt D S) → Prop
  | [], ds, fds => ds = [] ∧ fds = []
  | t :: ts, ds, fds => ∃ d ds' x xs, ds = d :: ds' ∧ fds = x :: xs ∧ SameLast t d x ∧ SameLastL ts ds' xs
end

omit [CxxData D] in
theorem SameLast.lastVal {t : Tree D W E S} {o : Obj D W E S} {s : FSt D S} (h : SameLast t o s) : o.lastVal = s.lastVal := by
  cases t with
  | lazy c ts =>
    simp only [SameLast] at h
    obtain ⟨f, cache, ds, st, fc, fds, rfl, rfl, h, _⟩ := h
    simpa [Obj.lastVal, FSt.lastVal] using h
  | _ => simpa only [SameLast] using h

omit [CxxData D] in
theorem SameLastL.lastVals : ∀ {ts : List (Tree D W E S)} {ds : List (Obj D W E S)} {fds : List (FSt D S)}, SameLastL ts ds fds →
    ds.map Obj.lastVal = fds.map FSt.lastVal
  | [], _, _, h => by simp only [SameLastL] at h; simp [h.1, h.2]
  | t :: ts, _, _, h => by
    simp only [SameLastL] at h
    obtain ⟨d, ds', x, xs, rfl, rfl, h1, h2⟩ := h
    simp [h1.lastVal, h2.lastVals]

omit [CxxData D] in
mutual
theorem sameLast_of_last {m : Meaning D W E S O} {ob : O} : ∀ {t : Tree D W E S} {o : Obj D W E S} {s : FSt D S}, LastAll m ob t o → LastF m ob t s →
    SameLast t o s
  | .value v, o, s, h1, h2 => by simp only [SameLast]; rw [h1.lastVal, h2.lastVal]
  | .function c, o, s, h1, h2 => by simp only [SameLast]; rw [h1.lastVal, h2.lastVal]
  | .lazy c ts, o, s, h1, h2 => by
    simp only [LastAll] at h1
    simp only [LastF] at h2
    obtain ⟨f, cache, ds, rfl, h3, h4⟩ := h1
    obtain ⟨st, fds, rfl, h5⟩ := h2
    simp only [SameLast]
    exact ⟨_, _, _, _, _, _, rfl, rfl, h3, sameLastL_of_last h4 h5⟩
theorem sameLastL_of_last {m : Meaning D W E S O} {ob : O} : ∀ {ts : List (Tree D W E S)} {ds : List (Obj D W E S)} {fds : List (FSt D S)},
    LastAllL m ob ts ds → LastFL m ob ts fds → SameLastL ts ds fds
  | [], _, _, h1, h2 => by simp only [LastAllL] at h1; simp only [LastFL] at h2; simp [SameLastL, h1, h2]
  | t :: ts, _, _, h1, h2 => by
    simp only [LastAllL] at h1
    simp only [LastFL] at h2
    obtain ⟨d, ds', rfl, h3, h4⟩ := h1
    obtain ⟨x, xs, rfl, h5, h6⟩ := h2
    simp only [SameLastL]
    exact ⟨_, _, _, _, rfl, rfl, sameLast_of_last h3 h5, sameLastL_of_last h4 h6⟩
end

theorem flag_flagF (hs : SoundNe D) (hr : ReflNe D) (last : Option (Val D)) (v : Val D) : flag last v = flagF last v := by
  cases last with
  | none => rfl
  | some x =>
    simp only [flag, flagF, neCache]
    cases h1 : Val.ne x v with
    | false => rw [Val.ne_sound hs _ _ h1, Val.ne_refl hr]
    | true =>
      cases h2 : Val.ne v x with
      | true => rfl
      | false => rw [Val.ne_sound hs _ _ h2, Val.ne_refl hr] at h1; cases h1

mutual
theorem expect_expectF (hs : SoundNe D) (hr : ReflNe D) (m : Meaning D W E S O) (ob : O) : ∀ (t : Tree D W E S) (o : Obj D W E S) (s : FSt D S), SameLast t o s →
    expect m ob t o = expectF m ob t s
  | .value v, o, s, _ => by simp [expect, expectF]
  | .function c, o, s, _ => by simp [expect, expectF]
  | .lazy c ts, o, s, h => by
    simp only [SameLast] at h
    obtain ⟨f, cache, ds, st, fc, fds, rfl, rfl, h, h'⟩ := h
    have : (flag : Option (Val D) → Val D → Bool) = flagF := by funext a b; exact flag_flagF hs hr a b
    simp only [expect, expectF, stale, h, h'.lastVals, expectL_expectF hs hr m ob ts ds fds h', this]
theorem expectL_expectF (hs : SoundNe D) (hr : ReflNe D) (m : Meaning D W E S O) (ob : O) : ∀ (ts : List (Tree D W E S)) (ds : List (Obj D W E S))
    (fds : List (FSt D S)), SameLastL ts ds fds → expectL m ob ts ds = expectFL m ob ts fds
  | [], _, _, _ => by simp [expectL, expectFL]
  | t :: ts, _, _, h => by
    simp only [SameLastL] at h
    obtain ⟨d, ds', x, xs, rfl, rfl, h1, h2⟩ := h
    simp only [expectL, expectFL, expect_expectF hs hr m ob t d x h1, expectL_expectF hs hr m ob ts ds' xs h2]
end

/-- Both designs, after the same program. -/
structure Joint (m : Meaning D W E S O) (ts : List (Tree D W E S)) (s : State D W E S) (f : FState D W E S) : Prop where
  inv : Inv ts s
  cons : AllVars (Cons m) ts s.vars
  finv : FInv m ts f
  same : ∀ (i : Nat) t o x, ts[i]? = some t → s.vars[i]? = some o → f.vars[i]? = some x → SameLast t o x.2
  obs : m.obs s.env.w = m.obs f.env.w
  calls : fnCalls s.env.log = fnCalls f.env.log

theorem args_same {m : Meaning D W E S O} {ts : List (Tree D W E S)} {s : State D W E S} {f : FState D W E S} (h : Joint m ts s f) :
    ∀ (as : List (ArgRef D W E S)) us os xs, argTrees ts as = some us → (∀ t ∈ us, t.NoVoid) →
      (resolveAll s.vars as).bind ensureAll = some os → ensureAllF f.vars as = some xs → SameLastL us os (xs.map (·.2))
  | [], us, os, xs, h1, _, h2, h3 => by
    simp only [argTrees, Option.some.injEq] at h1
    simp only [resolveAll, Option.bind_some, ensureAll, Option.some.injEq] at h2
    simp only [ensureAllF, Option.some.injEq] at h3
    subst h1 h2 h3
    simp [SameLastL]
  | a :: as, us, os, xs, h1, hv, h2, h3 => by
    rw [argTrees] at h1
    rcases ha : a.tree ts with _ | t
    · simp [ha] at h1
    rcases hb' : argTrees ts as with _ | us'
    · simp [ha, hb'] at h1
    simp only [ha, hb', Option.some.injEq] at h1
    subst h1
    rw [resolveAll] at h2
    rcases hr : a.resolve s.vars with _ | d
    · simp [hr] at h2
    rcases hr2 : resolveAll s.vars as with _ | dd
    · simp [hr, hr2] at h2
    simp only [hr, hr2, Option.bind_some, ensureAll] at h2
    rcases he : ensureLazy d with _ | o
    · simp [he] at h2
    rcases he2 : ensureAll dd with _ | os'
    · simp [he, he2] at h2
    simp only [he, he2, Option.some.injEq] at h2
    subst h2
    rw [ensureAllF] at h3
    rcases hf : ensureF f.vars a with _ | x
    · simp [hf] at h3
    rcases hf2 : ensureAllF f.vars as with _ | xs'
    · simp [hf, hf2] at h3
    simp only [hf, hf2, Option.some.injEq] at h3
    subst h3
    simp only [SameLastL, List.map_cons]
    refine ⟨_, _, _, _, rfl, rfl, ?_, args_same h as us' os' xs' hb' (fun t ht => hv t (by simp [ht])) (by simp [hr2, he2]) hf2⟩
    cases a with
    | value v =>
      simp only [ArgRef.tree, Option.some.injEq] at ha; subst ha
      simp only [ArgRef.resolve, Option.some.injEq] at hr; subst hr
      rw [ensureLazy_value] at he
      simp only [Option.some.injEq] at he; subst he
      simp only [ensureF, Option.some.injEq] at hf; subst hf
      simp [SameLast, Obj.lastVal, FSt.lastVal]
    | function u =>
      simp only [ArgRef.tree] at ha
      simp only [ArgRef.resolve, Option.some.injEq] at hr; subst hr
      rw [ensureLazy_function] at he
      by_cases hvd : u.ret = .void
      · simp [hvd] at he
      · simp only [hvd, if_false, Option.some.injEq] at he ha
        subst ha; subst he
        have hr' : u.ret = .val := by cases hv _ (List.mem_cons_self ..); assumption
        simp only [ensureF, hr', if_true, Option.some.injEq] at hf; subst hf
        simp [SameLast, Obj.lastVal, FSt.lastVal, detailLazy, facadeF, lazyCoreF, Cache.empty_val?]
    | var i =>
      simp only [ArgRef.tree] at ha
      simp only [ArgRef.resolve, Option.map_eq_some_iff] at hr
      obtain ⟨y, hy, rfl⟩ := hr
      have hsh := h.inv.shape.get? ha hy
      obtain ⟨c, us, rfl⟩ := h.inv.lz t (List.mem_of_getElem? ha)
      have hs' := hsh
      simp only [Shape] at hs'
      obtain ⟨u, cache, ds, _, _, _, rfl⟩ := hs'
      rw [ensureLazy_facade] at he
      simp only [Option.some.injEq] at he; subst he
      exact h.same i _ _ _ ha hy hf

/-- What is needed of the operation: changes of the world are functions of what is observed of it. -/
def Op.Respects (m : Meaning D W E S O) : Op D W E S → Prop
  | .poke h => ∀ w w', m.obs w = m.obs w' → m.obs (h w) = m.obs (h w')
  | _ => True

theorem joint_eval (hs : SoundNe D) (hr : ReflNe D) (m : Meaning D W E S O) {ts : List (Tree D W E S)} {s : State D W E S} {f : FState D W E S}
    (h : Joint m ts s f) (i : Nat) (t : Tree D W E S) (ht : ts[i]? = some t) (hok : TreeOk .retained m t) (hv : t.NoVoid) :
    ∃ o x r o' env' ch x' fenv', s.vars[i]? = some o ∧ f.vars[i]? = some (t.fty, x) ∧ evalN .retained o s.env = (.ok r, o', env') ∧
      evalF t.fty x f.env = (.ok (r.value, r.isChanged), x', fenv') ∧ r.value = m.eager (m.obs s.env.w) t ∧ r.live = true ∧ ch = r.isChanged ∧
      (∃ c us, t = .lazy c us ∧ Shape t o) ∧ Cons m t o ∧
      (∀ vars fvars, vars = s.vars.set i o' → fvars = f.vars.set i (t.fty, x') → Inv ts ⟨vars, env'⟩ → Joint m ts ⟨vars, env'⟩ ⟨fvars, fenv'⟩) := by
  obtain ⟨hi, _⟩ := List.getElem?_eq_some_iff.1 ht
  have ho : s.vars[i]? = some (s.vars[i]'(by rw [← h.inv.shape.length]; exact hi)) := List.getElem?_eq_getElem _
  obtain ⟨x, hx1, hx2⟩ := h.finv.good i t ht
  have hsh := h.inv.shape.get? ht ho
  have hc := h.cons i t _ ht ho
  have hsame := h.same i t _ _ ht ho hx1
  obtain ⟨r, o', env', e1, e2, e3, e4, e5, e6, e7⟩ := evalN_stepOk hs .retained m t _ s.env hsh hok.1 hok.2.1 hok.2.2 hc
  obtain ⟨ch, x', fenv', f1, f2, f3, f4, f5, f6⟩ := evalF_ok hs m t x f.env hok.1 hx2
  rw [← h.obs] at f1 f2 f3 f5 f6
  obtain ⟨q1, q2, _⟩ := e7 hr
  obtain ⟨p1, p2, _⟩ := f6 hr
  have hch : ch = r.isChanged := by rw [p1, q1, flag_flagF hs hr, hsame.lastVal, e2]
  have hlast : LastAll m (m.obs s.env.w) t o' := e6 ⟨rfl, rfl, rfl, rfl⟩
  refine ⟨_, x, r, o', env', ch, x', fenv', ho, hx1, e1, by rw [f1, hch, e2], e2, e3, hch, ?_, hc, ?_⟩
  · obtain ⟨c, us, rfl⟩ := h.inv.lz t (List.mem_of_getElem? ht)
    exact ⟨c, us, rfl, hsh⟩
  · intro vars fvars hvars hfvars hinv
    subst hvars hfvars
    refine ⟨hinv, h.cons.set (fun t' ht' => ?_), h.finv.set i t x' fenv' ht f4, ?_, by simp only [e5, f3], ?_⟩
    · rw [ht] at ht'
      cases ht'
      exact hlast.cons
    · intro j u o y hu ho' hy
      by_cases hj : i = j
      · subst hj
        rw [ht] at hu
        cases hu
        simp only at ho' hy
        rw [set_get _ _ _ _ ho] at ho'
        rw [set_get _ _ _ _ hx1] at hy
        cases ho'
        cases hy
        exact sameLast_of_last hlast f5
      · simp only [List.getElem?_set_ne hj] at ho' hy
        exact h.same j u o y hu ho' hy
    · simp only [q2, p2, h.calls, expect_expectF hs hr m _ t _ _ hsame]

/-- The operations do the same. -/
theorem joint_step (hs : SoundNe D) (hr : ReflNe D) (m : Meaning D W E S O) {ts : List (Tree D W E S)} {s : State D W E S} {f : FState D W E S}
    (h : Joint m ts s f) (op : Op D W E S) (hop : op.Respects m) (hok : ∀ t ∈ stepTrees ts op, TreeOk .retained m t ∧ t.NoVoid) :
    (step .retained s op).1 = (fstep f op).1 ∧ Joint m (stepTrees ts op) (step .retained s op).2 (fstep f op).2 := by
  have hinv := step_inv .retained h.inv op
  have hfinv := fstep_inv hs m h.finv op (fun t ht => ⟨(hok t ht).1.1, (hok t ht).2⟩)
  cases op with
  | mk u deps =>
    have key := mk_tree h.inv.shape h.inv.lz u deps
    simp only [stepTrees] at hok hinv hfinv ⊢
    rcases ha : argTrees ts deps with _ | us
    · have h1 : step .retained s (.mk u deps) = (.invalid, s) := by simp only [step]; rw [key.2 ha]
      have h2 : fstep f (.mk u deps) = (.invalid, f) := by simp only [fstep]; rw [ensureAllF_none h.finv.len deps ha]; simp
      rw [h1, h2]
      exact ⟨rfl, h⟩
    · rw [ha] at hok hinv hfinv
      obtain ⟨_, hv⟩ := hok (.lazy u.toFnCode us) (by simp)
      have hret : u.ret = .val := by cases hv; assumption
      have hvs : ∀ t ∈ us, t.NoVoid := by cases hv; assumption
      obtain ⟨os, hos, hsh, hos2⟩ := key.1 us ha
      obtain ⟨xs, h1, h2, h3⟩ := ensureAllF_some h.finv deps us ha hvs
      have hsame := args_same h deps us os xs ha hvs hos2 h1
      have hc := args_built (cons_built m) h.inv.shape h.inv.lz h.cons deps us os ha hos2
      obtain ⟨h4, h5⟩ := lazyF_good u hret h2 h3
      have e1 : step .retained s (.mk u deps) = (.unit, { s with vars := s.vars ++ [.unregularized (.unwrapped (detailLazy (.regularized u) os))] }) := by
        simp only [step]
        rw [hos]
        rfl
      have e2 : fstep f (.mk u deps) = (.unit, { f with vars := f.vars ++ [lazyF u xs] }) := by simp only [fstep, hret, if_true, h1]
      rw [e1] at hinv ⊢
      rw [e2] at hfinv ⊢
      refine ⟨rfl, hinv, h.cons.append h.inv.shape.length ((cons_built m).lazy u us os hsh.length hc hsh), hfinv, ?_, h.obs, h.calls⟩
      intro j t o x ht ho hx
      rw [List.getElem?_append] at ht ho hx
      rw [← h.inv.shape.length] at ho
      rw [h.finv.len] at hx
      split at ht
      · rename_i hj
        rw [if_pos hj] at ho hx
        exact h.same j t o x ht ho hx
      · rename_i hj
        rw [if_neg hj] at ho hx
        rcases Nat.eq_zero_or_pos (j - ts.length) with h0 | h0
        · simp only [h0, List.getElem?_cons_zero, Option.some.injEq] at ht ho hx
          subst ht ho hx
          rw [h4]
          simp only [SameLast, detailLazy]
          exact ⟨_, _, _, _, _, _, rfl, rfl, Cache.empty_val? _, hsame⟩
        · rw [List.getElem?_eq_none (by simp; omega)] at ht
          cases ht
  | copy i =>
    simp only [stepTrees] at hok hinv hfinv ⊢
    rcases ht : ts[i]? with _ | t
    · have h1 : s.vars[i]? = none := by
        rw [List.getElem?_eq_none_iff] at ht ⊢
        rw [← h.inv.shape.length]; exact ht
      simp only [step, h1, fstep, (h.finv.none i).2 ht]
      exact ⟨trivial, h⟩
    · rw [ht] at hinv hfinv
      obtain ⟨hi, _⟩ := List.getElem?_eq_some_iff.1 ht
      have ho : s.vars[i]? = some (s.vars[i]'(by rw [← h.inv.shape.length]; exact hi)) := List.getElem?_eq_getElem _
      obtain ⟨x, hx1, hx2⟩ := h.finv.good i t ht
      generalize s.vars[i]'_ = o at ho
      have e1 : step .retained s (.copy i) = (.unit, { s with vars := s.vars ++ [o] }) := by simp only [step, ho]
      have e2 : fstep f (.copy i) = (.unit, { f with vars := f.vars ++ [(t.fty, x)] }) := by simp only [fstep, hx1]
      rw [e1] at hinv ⊢
      rw [e2] at hfinv ⊢
      refine ⟨rfl, hinv, h.cons.append h.inv.shape.length (h.cons i t _ ht ho), hfinv, ?_, h.obs, h.calls⟩
      intro j t' o' x' ht' ho' hx'
      rw [List.getElem?_append] at ht' ho' hx'
      rw [← h.inv.shape.length] at ho'
      rw [h.finv.len] at hx'
      split at ht'
      · rename_i hj
        rw [if_pos hj] at ho' hx'
        exact h.same j t' o' x' ht' ho' hx'
      · rename_i hj
        rw [if_neg hj] at ho' hx'
        rcases Nat.eq_zero_or_pos (j - ts.length) with h0 | h0
        · simp only [h0, List.getElem?_cons_zero, Option.some.injEq] at ht' ho' hx'
          subst ht' ho' hx'
          exact h.same i _ _ _ ht ho hx1
        · rw [List.getElem?_eq_none (by simp; omega)] at ht'
          cases ht'
  | call i =>
    simp only [stepTrees] at hok hinv hfinv ⊢
    rcases ht : ts[i]? with _ | t
    · have h1 : s.vars[i]? = none := by
        rw [List.getElem?_eq_none_iff] at ht ⊢
        rw [← h.inv.shape.length]; exact ht
      simp only [step, h1, fstep, (h.finv.none i).2 ht]
      exact ⟨trivial, h⟩
    · obtain ⟨hk, hv⟩ := hok t (List.mem_of_getElem? ht)
      obtain ⟨o, x, r, o', env', ch, x', fenv', a1, a2, a3, a4, a5, a6, a7, ⟨c, us, rfl, a8⟩, a9, a10⟩ := joint_eval hs hr m h i t ht hk hv
      have hst := step_call .retained s i o a1
      have hret : c.ret = .val := by cases hv; assumption
      have hobj := call0_obj .retained c us o s.env a8
      have hres := call0_stepOk hs .retained m c us o s.env a8 hk a9
      rw [a3] at hobj
      rw [hst, hres, hobj] at hinv ⊢
      simp only [fstep, a2, a4, Out.map]
      refine ⟨by simp [Meaning.result, hret, a5], a10 _ _ rfl rfl hinv⟩
  | poll i =>
    simp only [stepTrees] at hok hinv hfinv ⊢
    rcases ht : ts[i]? with _ | t
    · have h1 : s.vars[i]? = none := by
        rw [List.getElem?_eq_none_iff] at ht ⊢
        rw [← h.inv.shape.length]; exact ht
      simp only [step, h1, fstep, (h.finv.none i).2 ht]
      exact ⟨trivial, h⟩
    · obtain ⟨hk, hv⟩ := hok t (List.mem_of_getElem? ht)
      obtain ⟨o, x, r, o', env', ch, x', fenv', a1, a2, a3, a4, a5, a6, a7, _, a9, a10⟩ := joint_eval hs hr m h i t ht hk hv
      have hst := step_poll .retained s i o a1
      rw [a3] at hst
      rw [hst] at hinv ⊢
      simp only [fstep, a2, a4, Out.map]
      refine ⟨?_, a10 _ _ rfl rfl hinv⟩
      rw [← a6]
  | poke q =>
    exact ⟨rfl, ⟨hinv, h.cons, hfinv, h.same, hop _ _ h.obs, h.calls⟩⟩

theorem joint_run (hs : SoundNe D) (hr : ReflNe D) (m : Meaning D W E S O) : ∀ (ops : List (Op D W E S)) {ts : List (Tree D W E S)} {s : State D W E S}
    {f : FState D W E S}, Joint m ts s f → (∀ op ∈ ops, op.Respects m) → (∀ t ∈ runTrees ts ops, TreeOk .retained m t ∧ t.NoVoid) →
    (run .retained s ops).1 = (frun f ops).1 ∧ Joint m (runTrees ts ops) (run .retained s ops).2 (frun f ops).2
  | [], _, _, _, h, _, _ => ⟨rfl, h⟩
  | op :: ops, ts, s, f, h, hop, hok => by
    have ht : runTrees ts (op :: ops) = runTrees (stepTrees ts op) ops := rfl
    rw [ht] at hok ⊢
    obtain ⟨h1, h2⟩ := joint_step hs hr m h op (hop op (by simp)) (fun t ht => hok t ((runTrees_prefix ops _).subset ht))
    obtain ⟨h3, h4⟩ := joint_run hs hr m ops h2 (fun o ho => hop o (by simp [ho])) hok
    exact ⟨by simp only [run, frun, h1, h3], h4⟩

theorem Joint.init (m : Meaning D W E S O) (w : W) : Joint m [] (State.init w) (FState.init w : FState D W E S) :=
  ⟨init_inv w, by intro i t o h _; simp at h, FInv.init m w, by simp, rfl, rfl⟩

end Pigro
