import Verif.Spec.Interference
import Verif.Proofs.Replay
/-!
# Evaluations in worlds that look the same; evaluations that are not noticed
-/
namespace Pigro
variable {D W E S : Type}

mutual
/-- All functions in an object. -/
def Obj.AllCodes (P : FnCode D W E S → Prop) : Obj D W E S → Prop
  | .lazyValue _ _ => True
  | .core f _ deps => P f.ufn.toFnCode ∧ Obj.AllCodesL P deps
  | .unwrapped i => i.AllCodes P
  | .unregularized i => i.AllCodes P
/-- Element-wise. -/
def Obj.AllCodesL (P : FnCode D W E S → Prop) : List (Obj D W E S) → Prop
  | [] => True
  | d :: ds => d.AllCodes P ∧ Obj.AllCodesL P ds
end

theorem alike_invoke {R : W → W → Prop} (u : UFn D W E S) (hu : u.toFnCode.SeesOnly R) (k : Kind) (args : List (Val D)) (e1 e2 : Env D W S) (h : R e1.w e2.w) :
    (u.invoke k args e1).1 = (u.invoke k args e2).1 ∧ (u.invoke k args e1).2.1 = (u.invoke k args e2).2.1 ∧
    R (u.invoke k args e1).2.2.w (u.invoke k args e2).2.2.w ∧
    ∃ evs, (u.invoke k args e1).2.2.log = e1.log ++ evs ∧ (u.invoke k args e2).2.2.log = e2.log ++ evs := by
  obtain ⟨h1, h2, h3⟩ := hu u.st args e1.w e2.w h
  simp only [UFn.invoke]
  rw [h1, h2]
  exact ⟨rfl, rfl, h3, _, rfl, rfl⟩

theorem alike_fun {R : W → W → Prop} (g : Glue) (f : Fun D W E S) (hf : f.ufn.toFnCode.SeesOnly R) (args : List (Val D)) (e1 e2 : Env D W S) (h : R e1.w e2.w) :
    ∃ o f' w1 w2 evs, f.call g args e1 = (o, f', ⟨w1, e1.log ++ evs⟩) ∧ f.call g args e2 = (o, f', ⟨w2, e2.log ++ evs⟩) ∧ R w1 w2 := by
  rcases f with u | u
  · obtain ⟨h1, h2, h3, evs, h4, h5⟩ := alike_invoke u hf .fn args e1 e2 h
    rcases i1 : u.invoke .fn args e1 with ⟨r1, u1, w1, l1⟩
    rcases i2 : u.invoke .fn args e2 with ⟨r2, u2, w2, l2⟩
    rw [i1, i2] at h1 h2 h3
    rw [i1] at h4
    rw [i2] at h5
    simp only at h1 h2 h3 h4 h5
    subst h1 h2 h4 h5
    cases r1 <;> exact ⟨_, _, w1, w2, evs, by simp only [Fun.call, i1]; rfl, by simp only [Fun.call, i2], h3⟩
  · obtain ⟨h1, h2, h3, evs, h4, h5⟩ := alike_invoke u hf .dep [] e1 e2 h
    rcases i1 : u.invoke .dep [] e1 with ⟨r1, u1, w1, l1⟩
    rcases i2 : u.invoke .dep [] e2 with ⟨r2, u2, w2, l2⟩
    rw [i1, i2] at h1 h2 h3
    rw [i1] at h4
    rw [i2] at h5
    simp only at h1 h2 h3 h4 h5
    subst h1 h2 h4 h5
    cases r1 <;> exact ⟨_, _, w1, w2, evs, by simp only [Fun.call, i1]; rfl, by simp only [Fun.call, i2], h3⟩

variable [CxxData D]

theorem alike_coreTail {R : W → W → Prop} (g : Glue) (f : Fun D W E S) (hf : f.ufn.toFnCode.SeesOnly R) (cache : Cache D) (rs : List (LazyRes D))
    (e1 e2 : Env D W S) (h : R e1.w e2.w) :
    ∃ o f' c' w1 w2 evs, coreTail g f cache rs e1 = (o, f', c', ⟨w1, e1.log ++ evs⟩) ∧ coreTail g f cache rs e2 = (o, f', c', ⟨w2, e2.log ++ evs⟩) ∧ R w1 w2 := by
  have stay : ∀ (o : Out E (LazyRes D)), ∃ o' f' c' w1 w2 evs, ((o, f, cache, e1) : _ × _ × _ × Env D W S) = (o', f', c', ⟨w1, e1.log ++ evs⟩) ∧
      ((o, f, cache, e2) : _ × _ × _ × Env D W S) = (o', f', c', ⟨w2, e2.log ++ evs⟩) ∧ R w1 w2 :=
    fun o => ⟨o, f, cache, e1.w, e2.w, [], by simp, by simp, h⟩
  unfold coreTail
  dsimp only
  split
  · rcases readValues rs with _ | values
    · exact stay _
    · obtain ⟨o, f', w1, w2, evs, h1, h2, h3⟩ := alike_fun g f hf values e1 e2 h
      dsimp only
      rw [h1, h2]
      rcases o with r | e | _ | _
      · dsimp only
        rcases (cache.assign r).deref with _ | v
        · exact ⟨_, _, _, _, _, evs, rfl, rfl, h3⟩
        · exact ⟨_, _, _, _, _, evs ++ cmpEvents cache r, by rw [List.append_assoc], by rw [List.append_assoc], h3⟩
      all_goals exact ⟨_, _, _, _, _, evs, rfl, rfl, h3⟩
  · rcases cache.deref with _ | v <;> exact stay _

mutual
theorem alike_evalN {R : W → W → Prop} (g : Glue) (o : Obj D W E S) (ho : o.AllCodes (·.SeesOnly R)) (e1 e2 : Env D W S) (h : R e1.w e2.w) :
    ∃ r o' w1 w2 evs, evalN g o e1 = (r, o', ⟨w1, e1.log ++ evs⟩) ∧ evalN g o e2 = (r, o', ⟨w2, e2.log ++ evs⟩) ∧ R w1 w2 := by
  match o with
  | .lazyValue v c => exact ⟨_, _, e1.w, e2.w, [], by rw [List.append_nil, evalN], by rw [List.append_nil, evalN], h⟩
  | .core f cache deps =>
    simp only [Obj.AllCodes] at ho
    obtain ⟨r, ds', w1, w2, evs, h1, h2, h3⟩ := alike_evalDeps g deps ho.2 e1 e2 h
    rcases r with rs | e | _ | _
    · obtain ⟨o, f', c', w1', w2', evs', h1', h2', h3'⟩ := alike_coreTail g f ho.1 cache rs ⟨w1, e1.log ++ evs⟩ ⟨w2, e2.log ++ evs⟩ h3
      exact ⟨_, _, w1', w2', evs ++ evs', by simp only [evalN, h1, h1', List.append_assoc]; rfl, by simp only [evalN, h2, h2', List.append_assoc], h3'⟩
    all_goals exact ⟨_, _, w1, w2, evs, by simp only [evalN, h1]; rfl, by simp only [evalN, h2], h3⟩
  | .unwrapped i =>
    simp only [Obj.AllCodes] at ho
    obtain ⟨r, o', w1, w2, evs, h1, h2, h3⟩ := alike_evalN g i ho e1 e2 h
    exact ⟨_, _, w1, w2, evs, by simp only [evalN, h1]; rfl, by simp only [evalN, h2], h3⟩
  | .unregularized i =>
    simp only [Obj.AllCodes] at ho
    obtain ⟨r, o', w1, w2, evs, h1, h2, h3⟩ := alike_evalN g i ho e1 e2 h
    exact ⟨_, _, w1, w2, evs, by simp only [evalN, h1]; rfl, by simp only [evalN, h2], h3⟩
theorem alike_evalDeps {R : W → W → Prop} (g : Glue) (ds : List (Obj D W E S)) (ho : Obj.AllCodesL (·.SeesOnly R) ds) (e1 e2 : Env D W S) (h : R e1.w e2.w) :
    ∃ r ds' w1 w2 evs, evalDeps g ds e1 = (r, ds', ⟨w1, e1.log ++ evs⟩) ∧ evalDeps g ds e2 = (r, ds', ⟨w2, e2.log ++ evs⟩) ∧ R w1 w2 := by
  match ds with
  | [] => exact ⟨_, _, e1.w, e2.w, [], by rw [List.append_nil, evalDeps], by rw [List.append_nil, evalDeps], h⟩
  | d :: ds =>
    simp only [Obj.AllCodesL] at ho
    obtain ⟨r, d', w1, w2, evs, h1, h2, h3⟩ := alike_evalN g d ho.1 e1 e2 h
    rcases r with rs | e | _ | _
    · obtain ⟨r', ds', w1', w2', evs', h1', h2', h3'⟩ := alike_evalDeps g ds ho.2 ⟨w1, e1.log ++ evs⟩ ⟨w2, e2.log ++ evs⟩ h3
      exact ⟨_, _, w1', w2', evs ++ evs', by simp only [evalDeps, h1, h1', List.append_assoc]; rfl, by simp only [evalDeps, h2, h2', List.append_assoc], h3'⟩
    all_goals exact ⟨_, _, w1, w2, evs, by simp only [evalDeps, h1]; rfl, by simp only [evalDeps, h2], h3⟩
end

theorem alike_call0 {R : W → W → Prop} (g : Glue) (o : Obj D W E S) (ho : o.AllCodes (·.SeesOnly R)) (e1 e2 : Env D W S) (h : R e1.w e2.w) :
    ∃ r o' w1 w2 evs, call0 g o e1 = (r, o', ⟨w1, e1.log ++ evs⟩) ∧ call0 g o e2 = (r, o', ⟨w2, e2.log ++ evs⟩) ∧ R w1 w2 := by
  match o with
  | .lazyValue v c => exact ⟨.illFormed, _, e1.w, e2.w, [], by rw [List.append_nil]; rfl, by rw [List.append_nil]; rfl, h⟩
  | .core f c ds => exact ⟨.illFormed, _, e1.w, e2.w, [], by rw [List.append_nil]; rfl, by rw [List.append_nil]; rfl, h⟩
  | .unwrapped i =>
    obtain ⟨r, o', w1, w2, evs, h1, h2, h3⟩ := alike_evalN g (.unwrapped i) ho e1 e2 h
    rcases r with r | e | _ | _ <;>
      exact ⟨_, _, w1, w2, evs, by simp only [call0, h1]; rfl, by simp only [call0, h2], h3⟩
  | .unregularized i =>
    simp only [Obj.AllCodes] at ho
    obtain ⟨r, o', w1, w2, evs, h1, h2, h3⟩ := alike_call0 g i ho e1 e2 h
    exact ⟨_, _, w1, w2, evs, by simp only [call0, h1]; rfl, by simp only [call0, h2], h3⟩

/-! ### Unseen evaluations -/

/-- A relation between worlds that every invocation keeps is kept by every evaluation. -/
theorem unseen_coreTail {R : W → W → Prop} (hr : ∀ w, R w w) (g : Glue) (f : Fun D W E S) (hf : f.ufn.toFnCode.Unseen R)
    (cache : Cache D) (rs : List (LazyRes D)) (e : Env D W S) : R e.w (coreTail g f cache rs e).2.2.2.w := by
  have hc : ∀ args, R e.w (f.call g args e).2.2.w := by
    intro args
    rcases f with u | u
    · have : R e.w (u.run u.st args e.w).2.2 := hf u.st args e.w
      rcases hi : (u.run u.st args e.w).1 with x | v <;> simpa [Fun.call, UFn.invoke, hi] using this
    · have : R e.w (u.run u.st [] e.w).2.2 := hf u.st [] e.w
      rcases hi : (u.run u.st [] e.w).1 with x | v <;> simpa [Fun.call, UFn.invoke, hi] using this
  unfold coreTail
  dsimp only
  split
  · rcases readValues rs with _ | values
    · exact hr _
    · have := hc values
      dsimp only
      generalize f.call g values e = q at this ⊢
      rcases q with ⟨o, f', env'⟩
      rcases o with r | e' | _ | _
      · dsimp only
        rcases (cache.assign r).deref with _ | v <;> exact this
      all_goals exact this
  · rcases cache.deref with _ | v <;> exact hr _

mutual
theorem unseen_evalN {R : W → W → Prop} (hr : ∀ w, R w w) (ht : ∀ a b c, R a b → R b c → R a c) (g : Glue) (o : Obj D W E S) (ho : o.AllCodes (·.Unseen R))
    (e : Env D W S) : R e.w (evalN g o e).2.2.w := by
  match o with
  | .lazyValue v c => exact hr _
  | .core f cache deps =>
    simp only [Obj.AllCodes] at ho
    have h := unseen_evalDeps hr ht g deps ho.2 e
    simp only [evalN]
    generalize evalDeps g deps e = q at h ⊢
    rcases q with ⟨r, ds', e1⟩
    rcases r with rs | x | _ | _
    · exact ht _ _ _ h (unseen_coreTail hr g f ho.1 cache rs e1)
    all_goals exact h
  | .unwrapped i =>
    simp only [Obj.AllCodes] at ho
    simpa only [evalN] using unseen_evalN hr ht g i ho e
  | .unregularized i =>
    simp only [Obj.AllCodes] at ho
    simpa only [evalN] using unseen_evalN hr ht g i ho e
theorem unseen_evalDeps {R : W → W → Prop} (hr : ∀ w, R w w) (ht : ∀ a b c, R a b → R b c → R a c) (g : Glue) (ds : List (Obj D W E S))
    (ho : Obj.AllCodesL (·.Unseen R) ds) (e : Env D W S) : R e.w (evalDeps g ds e).2.2.w := by
  match ds with
  | [] => exact hr _
  | d :: ds =>
    simp only [Obj.AllCodesL] at ho
    have h := unseen_evalN hr ht g d ho.1 e
    simp only [evalDeps]
    generalize evalN g d e = q at h ⊢
    rcases q with ⟨r, d', e1⟩
    rcases r with rs | x | _ | _
    · exact ht _ _ _ h (unseen_evalDeps hr ht g ds ho.2 e1)
    all_goals exact h
end

theorem unseen_call0 {R : W → W → Prop} (hr : ∀ w, R w w) (ht : ∀ a b c, R a b → R b c → R a c) (g : Glue) (o : Obj D W E S) (ho : o.AllCodes (·.Unseen R))
    (e : Env D W S) : R e.w (call0 g o e).2.2.w := by
  match o with
  | .lazyValue v c => exact hr _
  | .core f c ds => exact hr _
  | .unwrapped i =>
    have := unseen_evalN hr ht g (.unwrapped i) ho e
    simp only [call0]
    generalize evalN g (.unwrapped i) e = q at this ⊢
    rcases q with ⟨r, o', e'⟩
    rcases r with r | x | _ | _ <;> exact this
  | .unregularized i =>
    simp only [Obj.AllCodes] at ho
    simpa only [call0] using unseen_call0 hr ht g i ho e

/-! ### Objects of trees -/

mutual
theorem Shape.allCodes {P : FnCode D W E S → Prop} : ∀ {t : Tree D W E S} {o : Obj D W E S}, Shape t o → (∀ c ∈ t.codes, P c) → o.AllCodes P
  | .value v, o, h, hc => by simp only [Shape] at h; subst h; simp [Obj.AllCodes]
  | .function c, o, h, hc => by
    simp only [Shape] at h
    obtain ⟨u, cache, rfl, hv, hf, rfl⟩ := h
    simpa [Obj.AllCodes, Obj.AllCodesL, Fun.ufn, Tree.codes] using hc
  | .lazy c ts, o, h, hc => by
    simp only [Shape] at h
    obtain ⟨u, cache, ds, rfl, hf, hds, rfl⟩ := h
    simp only [Obj.AllCodes, Fun.ufn]
    refine ⟨hc _ (by simp [Tree.codes]), hds.allCodes fun t ht c hcc => hc c ?_⟩
    simp only [Tree.codes, List.mem_append, List.mem_flatten, List.mem_map]
    exact .inl ⟨_, ⟨t, ht, rfl⟩, hcc⟩
theorem ShapeL.allCodes {P : FnCode D W E S → Prop} : ∀ {ts : List (Tree D W E S)} {ds : List (Obj D W E S)}, ShapeL ts ds →
    (∀ t ∈ ts, ∀ c ∈ t.codes, P c) → Obj.AllCodesL P ds
  | [], ds, h, _ => by simp only [ShapeL] at h; subst h; simp [Obj.AllCodesL]
  | t :: ts, ds, h, hc => by
    simp only [ShapeL] at h
    obtain ⟨d, ds', hd, hds, rfl⟩ := h
    exact ⟨hd.allCodes (hc t (by simp)), hds.allCodes fun t' ht' => hc t' (by simp [ht'])⟩
end

/-! ### Programs -/

/-- Two states of which one part of a program sees the same. -/
structure SameFor (R : W → W → Prop) (ours : Nat → Bool) (s1 s2 : State D W E S) : Prop where
  vars : ∀ j, ours j = true → s1.vars[j]? = s2.vars[j]?
  w : R s1.env.w s2.env.w

omit [CxxData D] in
theorem SameFor.set {R : W → W → Prop} {ours : Nat → Bool} {s1 s2 : State D W E S} (h : SameFor R ours s1 s2) (i : Nat) (o : Obj D W E S) (w1 w2 : W)
    (l1 l2 : List (Ev D S)) (hi : ours i = true) (hw : R w1 w2) : SameFor R ours ⟨s1.vars.set i o, ⟨w1, l1⟩⟩ ⟨s2.vars.set i o, ⟨w2, l2⟩⟩ := by
  refine ⟨fun j hj => ?_, hw⟩
  have h1 := h.vars j hj
  have h2 := h.vars i hi
  simp only [List.getElem?_set]
  split
  · rename_i he
    subst he
    rcases h3 : s1.vars[i]? with _ | x
    · rw [h3] at h2
      have a := List.getElem?_eq_none_iff.1 h3
      have b := List.getElem?_eq_none_iff.1 h2.symm
      simp [Nat.not_lt.2 a, Nat.not_lt.2 b]
    · rw [h3] at h2
      have a := (List.getElem?_eq_some_iff.1 h3).1
      have b := (List.getElem?_eq_some_iff.1 h2.symm).1
      simp [a, b]
  · exact h1

/-- An operation that concerns the part: the same is observed. -/
theorem same_step {R : W → W → Prop} {ours : Nat → Bool} (g : Glue) {s1 s2 : State D W E S} (h : SameFor R ours s1 s2)
    (hobj : ∀ j o, ours j = true → s1.vars[j]? = some o → o.AllCodes (·.SeesOnly R)) (op : Op D W E S) (hop : op.concerns ours = true)
    (hpoke : ∀ f, op = .poke f → ∀ w w', R w w' → R (f w) (f w')) :
    (step g s1 op).1 = (step g s2 op).1 ∧ SameFor R ours (step g s1 op).2 (step g s2 op).2 ∧
    (step g s1 op).2.env.log.drop s1.env.log.length = (step g s2 op).2.env.log.drop s2.env.log.length := by
  cases op with
  | mk f deps => simp [Op.concerns] at hop
  | copy i => simp [Op.concerns] at hop
  | poke f => exact ⟨rfl, ⟨h.vars, hpoke f rfl _ _ h.w⟩, by simp [step]⟩
  | call i =>
    simp only [Op.concerns] at hop
    have hv := h.vars i hop
    rcases ho : s1.vars[i]? with _ | o
    · rw [ho] at hv
      simp only [step, ho, ← hv]
      exact ⟨trivial, h, by simp⟩
    · rw [ho] at hv
      obtain ⟨r, o', w1, w2, evs, h1, h2, h3⟩ := alike_call0 g o (hobj i o hop ho) s1.env s2.env h.w
      simp only [step, ho, ← hv, h1, h2]
      exact ⟨trivial, h.set i o' w1 w2 _ _ hop h3, by simp⟩
  | poll i =>
    simp only [Op.concerns] at hop
    have hv := h.vars i hop
    rcases ho : s1.vars[i]? with _ | o
    · rw [ho] at hv
      simp only [step, ho, ← hv]
      exact ⟨trivial, h, by simp⟩
    · rw [ho] at hv
      obtain ⟨r, o', w1, w2, evs, h1, h2, h3⟩ := alike_evalN g o (hobj i o hop ho) s1.env s2.env h.w
      simp only [step, ho, ← hv, h1, h2]
      exact ⟨trivial, h.set i o' w1 w2 _ _ hop h3, by simp⟩

/-- An operation that does not concern the part is not noticed by it. -/
theorem other_step {R : W → W → Prop} (hR : Equivalence R) {ours : Nat → Bool} (g : Glue) {s1 s2 : State D W E S} (h : SameFor R ours s1 s2)
    (hlen : ∀ j, ours j = true → j < s1.vars.length)
    (hobj : ∀ j o, ours j = false → s1.vars[j]? = some o → o.AllCodes (·.Unseen R)) (op : Op D W E S) (hop : op.concerns ours = false) :
    SameFor R ours (step g s1 op).2 s2 := by
  have app : ∀ o : Obj D W E S, SameFor R ours { s1 with vars := s1.vars ++ [o] } s2 := fun o =>
    ⟨fun j hj => by rw [← h.vars j hj]; exact List.getElem?_append_left (hlen j hj), h.w⟩
  have upd : ∀ i (o : Obj D W E S) (e : Env D W S), ours i = false → R s1.env.w e.w → SameFor R ours ⟨s1.vars.set i o, e⟩ s2 := fun i o e hi he =>
    ⟨fun j hj => by
      rw [← h.vars j hj]
      exact List.getElem?_set_ne (by rintro rfl; rw [hi] at hj; cases hj), hR.trans (hR.symm he) h.w⟩
  cases op with
  | mk f deps =>
    simp only [step]
    split
    · exact app _
    · exact h
  | copy i =>
    simp only [step]
    split
    · exact app _
    · exact h
  | poke f => simp [Op.concerns] at hop
  | call i =>
    simp only [Op.concerns] at hop
    rcases ho : s1.vars[i]? with _ | o
    · simp only [step, ho]; exact h
    · simp only [step, ho]
      exact upd i _ _ hop (unseen_call0 hR.refl (fun _ _ _ => hR.trans) g o (hobj i o hop ho) s1.env)
  | poll i =>
    simp only [Op.concerns] at hop
    rcases ho : s1.vars[i]? with _ | o
    · simp only [step, ho]; exact h
    · simp only [step, ho]
      exact upd i _ _ hop (unseen_evalN hR.refl (fun _ _ _ => hR.trans) g o (hobj i o hop ho) s1.env)

/-- Programs without the operations that do not concern the part. -/
theorem same_run {R : W → W → Prop} (hR : Equivalence R) {ours : Nat → Bool} (g : Glue) (ops : List (Op D W E S)) : ∀ (ts : List (Tree D W E S)) (s1 s2 : State D W E S),
    Inv ts s1 → SameFor R ours s1 s2 → (∀ j, ours j = true → j < ts.length) →
    (∀ j t, ours j = true → ts[j]? = some t → ∀ c ∈ t.codes, c.SeesOnly R) →
    (∀ j t, ours j = false → (runTrees ts ops)[j]? = some t → ∀ c ∈ t.codes, c.Unseen R) →
    (∀ f, Op.poke f ∈ ops → ∀ w w', R w w' → R (f w) (f w')) →
    (observed g s1 ops).filter (·.1.concerns ours) = observed g s2 (ops.filter (·.concerns ours)) ∧
    SameFor R ours (run g s1 ops).2 (run g s2 (ops.filter (·.concerns ours))).2 := by
  induction ops with
  | nil => intro ts s1 s2 _ h _ _ _ _; exact ⟨rfl, h⟩
  | cons op ops ih =>
    intro ts s1 s2 hi h hlen hours hoth hpoke
    have hi' := step_inv g hi op
    obtain ⟨l, hl⟩ := stepTrees_prefix ts op
    have hlen' : ∀ j, ours j = true → j < (stepTrees ts op).length := fun j hj => by
      rw [← hl, List.length_append]; exact Nat.lt_of_lt_of_le (hlen j hj) (Nat.le_add_right _ _)
    have hours' : ∀ j t, ours j = true → (stepTrees ts op)[j]? = some t → ∀ c ∈ t.codes, c.SeesOnly R := fun j t hj ht =>
      hours j t hj (by rw [← hl, List.getElem?_append_left (hlen j hj)] at ht; exact ht)
    have tree : ∀ j o, s1.vars[j]? = some o → ∃ t, ts[j]? = some t ∧ Shape t o := fun j o ho => by
      have h1 : j < ts.length := by rw [hi.shape.length]; exact (List.getElem?_eq_some_iff.1 ho).1
      exact ⟨_, List.getElem?_eq_getElem h1, hi.shape.get? (List.getElem?_eq_getElem h1) ho⟩
    have hobj : ∀ j o, ours j = true → s1.vars[j]? = some o → o.AllCodes (·.SeesOnly R) := fun j o hj ho => by
      obtain ⟨t, ht, hs⟩ := tree j o ho
      exact hs.allCodes (hours j t hj ht)
    have hobj' : ∀ j o, ours j = false → s1.vars[j]? = some o → o.AllCodes (·.Unseen R) := fun j o hj ho => by
      obtain ⟨t, ht, hs⟩ := tree j o ho
      exact hs.allCodes (hoth j t hj (runTrees_get ts _ j t ht))
    cases hc : op.concerns ours with
    | true =>
      obtain ⟨h1, h2, h3⟩ := same_step g h hobj op hc (fun f hf => hpoke f (by simp [hf]))
      obtain ⟨h4, h5⟩ := ih _ _ _ hi' h2 hlen' hours' hoth (fun f hf => hpoke f (by simp [hf]))
      rw [List.filter_cons_of_pos hc]
      simp only [observed, run]
      rw [List.filter_cons_of_pos (p := fun x : Op D W E S × Obs D E × List (Ev D S) => x.1.concerns ours) hc, h1, h3, h4]
      exact ⟨rfl, h5⟩
    | false =>
      have h2 := other_step hR g h (fun j hj => by rw [← hi.shape.length]; exact hlen j hj) hobj' op hc
      obtain ⟨h4, h5⟩ := ih _ _ _ hi' h2 hlen' hours' hoth (fun f hf => hpoke f (by simp [hf]))
      rw [List.filter_cons_of_neg (by simp [hc])]
      simp only [observed, run]
      rw [List.filter_cons_of_neg (by simp [hc]), h4]
      exact ⟨rfl, h5⟩

end Pigro
