import Verif.Model.LazyEff
/-!
# Lemmas on `Model/LazyEff.lean`
-/
namespace Pigro.Eff
variable {D W E S : Type}

/-- The exception an operation of the user has thrown. -/
def Ev.failed : Ev D E S → Option E
  | .call _ _ _ _ _ (.error e) => some e
  | .ne _ _ (.error e) => some e
  | .store _ _ (.error e) => some e
  | _ => none

/-- The exception with which a call was left. -/
def exc {α : Type} : Out E α → Option E
  | .thrown e => some e
  | _ => none

/-- What may happen in a call that is left with exception `x` (or not): no operation fails except, if there is an exception, the very last, with it. -/
def Orderly (x : Option E) (evs : List (Ev D E S)) : Prop :=
  match x with
  | none => ∀ ev ∈ evs, ev.failed = none
  | some e => ∃ pre last, evs = pre ++ [last] ∧ (∀ ev ∈ pre, ev.failed = none) ∧ last.failed = some e

theorem Orderly.after {x : Option E} {evs evs' : List (Ev D E S)} (h : Orderly none evs) (h' : Orderly x evs') : Orderly x (evs ++ evs') := by
  cases x with
  | none =>
    intro ev hev
    rcases List.mem_append.1 hev with h1 | h1
    · exact h ev h1
    · exact h' ev h1
  | some e =>
    obtain ⟨pre, last, rfl, h1, h2⟩ := h'
    refine ⟨evs ++ pre, last, by simp, fun ev hev => ?_, h2⟩
    rcases List.mem_append.1 hev with h3 | h3
    · exact h ev h3
    · exact h1 ev h3

theorem Orderly.nil : Orderly none ([] : List (Ev D E S)) := by simp [Orderly]

theorem exc_map {α β : Type} (f : α → β) (o : Out E α) : exc (o.map f) = exc o := by
  cases o <;> rfl

theorem callFun_orderly (g : Glue) (f : Fun D W E S) (args : List (Val D)) (env : Env D W E S) :
    ∃ evs, (callFun g f args env).2.2.log = env.log ++ evs ∧ Orderly (exc (callFun g f args env).1) evs ∧
      ∀ ev ∈ evs, ∃ k id a s l r, ev = .call k id a s l r := by
  rcases f with u | u <;> simp only [callFun, invoke] <;> rcases h : (u.run u.st _ env.w).1 with e | v <;> simp only <;>
    refine ⟨_, rfl, ?_, by simp⟩
  · exact ⟨[], _, rfl, by simp, rfl⟩
  · simp [Orderly, exc, Ev.failed]
  · exact ⟨[], _, rfl, by simp, rfl⟩
  · simp [Orderly, exc, Ev.failed]

/-- As `exc`, for operations of the user. -/
def excE {α : Type} : Except E α → Option E
  | .error e => some e
  | .ok _ => none

theorem compare_orderly (ops : Ops D W E) (cache : Cache D) (r : Val D) (env : Env D W E S) :
    ∃ evs, (compare ops cache r env).2.log = env.log ++ evs ∧ Orderly (excE (compare ops cache r env).1) evs ∧
      ∀ ev ∈ evs, ∃ a b x, ev = .ne a b x := by
  rcases cache with ⟨_ | c⟩ | o
  · exact ⟨[], by simp [compare], Orderly.nil, by simp⟩
  · refine ⟨[.ne c r (ops.ne c r env.w).1], by simp [compare], ?_, by simp⟩
    simp only [compare]
    rcases (ops.ne c r env.w).1 with e | b
    · exact ⟨[], _, rfl, by simp, rfl⟩
    · simp [Orderly, excE, Ev.failed]
  · exact ⟨[], by simp [compare], Orderly.nil, by simp⟩

theorem assign_orderly (ops : Ops D W E) (cache : Cache D) (r : Val D) (env : Env D W E S) :
    ∃ evs, (assign ops cache r env).2.2.log = env.log ++ evs ∧ Orderly (excE (assign ops cache r env).1) evs := by
  rcases cache with old | o
  · refine ⟨[.store old r (ops.store old r env.w).1], ?_, ?_⟩
    · simp only [assign]; split <;> rfl
    · simp only [assign]
      rcases h : (ops.store old r env.w).1 with e | b
      · exact ⟨[], _, rfl, by simp, rfl⟩
      · simp [Orderly, excE, Ev.failed]
  · exact ⟨[], by simp [assign], Orderly.nil⟩

theorem coreTail_orderly (g : Glue) (ops : Ops D W E) (f : Fun D W E S) (cache : Cache D) (rs : List (LazyRes D)) (env : Env D W E S) :
    ∃ evs, (coreTail g ops f cache rs env).2.2.2.log = env.log ++ evs ∧ Orderly (exc (coreTail g ops f cache rs env).1) evs := by
  unfold coreTail
  split
  · split
    · exact ⟨[], by simp, Orderly.nil⟩
    · rename_i values _
      obtain ⟨evs, h1, h2, -⟩ := callFun_orderly g f values env
      rcases h : callFun g f values env with ⟨o, f', env1⟩
      rw [h] at h1 h2
      rcases o with result | e | _ | _
      · simp only
        obtain ⟨evs', h3, h4, -⟩ := compare_orderly ops cache result env1
        rcases h' : compare ops cache result env1 with ⟨_ | changed, env2⟩
        · rw [h'] at h3 h4
          exact ⟨evs ++ evs', by simp_all, h2.after h4⟩
        · rw [h'] at h3 h4
          simp only
          obtain ⟨evs2, h5, h6⟩ := assign_orderly ops cache result env2
          rcases h'' : assign ops cache result env2 with ⟨_ | _, cache', env3⟩
          · rw [h''] at h5 h6
            exact ⟨evs ++ evs' ++ evs2, by simp_all, (h2.after h4).after h6⟩
          · rw [h''] at h5 h6
            simp only
            split
            · exact ⟨evs ++ evs' ++ evs2, by simp_all, (h2.after h4).after h6⟩
            · exact ⟨evs ++ evs' ++ evs2, by simp_all, (h2.after h4).after h6⟩
      all_goals exact ⟨evs, h1, h2⟩
  · split
    · exact ⟨[], by simp, Orderly.nil⟩
    · exact ⟨[], by simp, Orderly.nil⟩

mutual
theorem evalN_orderly (g : Glue) (ops : Ops D W E) (o : Obj D W E S) (env : Env D W E S) :
    ∃ evs, (evalN g ops o env).2.2.log = env.log ++ evs ∧ Orderly (exc (evalN g ops o env).1) evs := by
  match o with
  | .lazyValue v c => exact ⟨[], by simp [evalN], Orderly.nil⟩
  | .core f cache deps =>
    obtain ⟨evs, h1, h2⟩ := evalDeps_orderly g ops deps env
    rw [evalN]
    rcases h : evalDeps g ops deps env with ⟨q, deps', env1⟩
    rw [h] at h1 h2
    rcases q with rs | e | _ | _
    · simp only
      obtain ⟨evs', h3, h4⟩ := coreTail_orderly g ops f cache rs env1
      exact ⟨evs ++ evs', by simp_all, h2.after h4⟩
    all_goals exact ⟨evs, h1, h2⟩
  | .unwrapped i =>
    obtain ⟨evs, h1, h2⟩ := evalN_orderly g ops i env
    rw [evalN]
    exact ⟨evs, h1, by rw [exc_map]; exact h2⟩
  | .unregularized i =>
    obtain ⟨evs, h1, h2⟩ := evalN_orderly g ops i env
    rw [evalN]
    exact ⟨evs, h1, by rw [exc_map]; exact h2⟩
theorem evalDeps_orderly (g : Glue) (ops : Ops D W E) (ds : List (Obj D W E S)) (env : Env D W E S) :
    ∃ evs, (evalDeps g ops ds env).2.2.log = env.log ++ evs ∧ Orderly (exc (evalDeps g ops ds env).1) evs := by
  match ds with
  | [] => exact ⟨[], by simp [evalDeps], Orderly.nil⟩
  | d :: ds =>
    obtain ⟨evs, h1, h2⟩ := evalN_orderly g ops d env
    rw [evalDeps]
    rcases h : evalN g ops d env with ⟨q, d', env1⟩
    rw [h] at h1 h2
    rcases q with r | e | _ | _
    · simp only
      obtain ⟨evs', h3, h4⟩ := evalDeps_orderly g ops ds env1
      refine ⟨evs ++ evs', by simp_all, ?_⟩
      rw [exc_map]
      exact h2.after h4
    all_goals exact ⟨evs, h1, h2⟩
end

/-! ### Caches -/

mutual
/-- All caches in an object. -/
def caches : Obj D W E S → List (Cache D)
  | .lazyValue _ _ => []
  | .core _ cache deps => cache :: cachesL deps
  | .unwrapped i => caches i
  | .unregularized i => caches i
/-- All caches in several. -/
def cachesL : List (Obj D W E S) → List (Cache D)
  | [] => []
  | o :: os => caches o ++ cachesL os
end

/-- One by one. -/
inductive Each {α : Type} (R : α → α → Prop) : List α → List α → Prop where
  | nil : Each R [] []
  | cons {a b : α} {as bs : List α} : R a b → Each R as bs → Each R (a :: as) (b :: bs)

theorem Each.append {α : Type} {R : α → α → Prop} {a b c d : List α} (h : Each R a b) (h' : Each R c d) : Each R (a ++ c) (b ++ d) := by
  induction h with
  | nil => exact h'
  | cons h1 _ ih => exact .cons h1 ih

theorem Each.mono {α : Type} {R R' : α → α → Prop} (hR : ∀ a b, R a b → R' a b) {a b : List α} (h : Each R a b) : Each R' a b := by
  induction h with
  | nil => exact .nil
  | cons h1 _ ih => exact .cons (hR _ _ h1) ih

theorem Each.refl {α : Type} {R : α → α → Prop} (hR : ∀ a, R a a) (a : List α) : Each R a a := by
  induction a with
  | nil => exact .nil
  | cons x a ih => exact .cons (hR x) ih

/-- How the contents of a cache after a call follow from those before and from what has happened: nothing; a result assigned; a failed assignment to an
engaged cache (which leaves some value); for `optional<regular_void>`, engaged. -/
def Explained (evs : List (Ev D E S)) (old new : Cache D) : Prop :=
  new = old ∨
  (∃ o r, old = .opt o ∧ .store o r (.ok ()) ∈ evs ∧ new = .opt (some r)) ∨
  (∃ c r e v, old = .opt (some c) ∧ .store (some c) r (.error e) ∈ evs ∧ new = .opt (some v)) ∨
  (∃ o, old = .rv o ∧ new = .rv ⟨true⟩)

theorem Explained.mono {evs evs' : List (Ev D E S)} (hs : ∀ ev ∈ evs, ev ∈ evs') {old new : Cache D} (h : Explained evs old new) :
    Explained evs' old new := by
  rcases h with h | ⟨o, r, h1, h2, h3⟩ | ⟨c, r, e, v, h1, h2, h3⟩ | h
  · exact .inl h
  · exact .inr (.inl ⟨o, r, h1, hs _ h2, h3⟩)
  · exact .inr (.inr (.inl ⟨c, r, e, v, h1, hs _ h2, h3⟩))
  · exact .inr (.inr (.inr h))

theorem Explained.refl (evs : List (Ev D E S)) (c : Cache D) : Explained evs c c := .inl rfl

theorem assign_explained (ops : Ops D W E) (cache : Cache D) (r : Val D) (env : Env D W E S) :
    Explained (assign ops cache r env).2.2.log cache (assign ops cache r env).2.1 := by
  rcases cache with old | o
  · simp only [assign]
    rcases h : (ops.store old r env.w).1 with e | ⟨⟩
    · simp only
      rcases old with _ | c
      · exact .inl rfl
      · exact .inr (.inr (.inl ⟨c, r, e, _, rfl, by simp, rfl⟩))
    · exact .inr (.inl ⟨old, r, rfl, by simp, rfl⟩)
  · exact .inr (.inr (.inr ⟨o, rfl, rfl⟩))

theorem coreTail_explained (g : Glue) (ops : Ops D W E) (f : Fun D W E S) (cache : Cache D) (rs : List (LazyRes D)) (w : W) :
    Explained (coreTail g ops f cache rs ⟨w, []⟩).2.2.2.log cache (coreTail g ops f cache rs ⟨w, []⟩).2.2.1 := by
  unfold coreTail
  split
  · split
    · exact .inl rfl
    · split
      · split
        · exact .inl rfl
        · rename_i env2 _
          have := assign_explained ops cache (by assumption) env2
          split
          · rename_i h; rw [h] at this; exact this
          · rename_i h; rw [h] at this
            split <;> exact this
      · exact .inl rfl
  · split <;> exact .inl rfl

/-! ### The log has no influence -/

theorem callFun_log (g : Glue) (f : Fun D W E S) (args : List (Val D)) (w : W) (l : List (Ev D E S)) :
    callFun g f args ⟨w, l⟩ = ((callFun g f args ⟨w, []⟩).1, (callFun g f args ⟨w, []⟩).2.1,
      ⟨(callFun g f args ⟨w, []⟩).2.2.w, l ++ (callFun g f args ⟨w, []⟩).2.2.log⟩) := by
  rcases f with u | u <;> simp only [callFun, invoke] <;> rcases (u.run u.st _ w).1 with e | v <;> simp

theorem compare_log (ops : Ops D W E) (cache : Cache D) (r : Val D) (w : W) (l : List (Ev D E S)) :
    compare ops cache r ⟨w, l⟩ = ((compare ops cache r ⟨w, ([] : List (Ev D E S))⟩).1,
      ⟨(compare ops cache r ⟨w, ([] : List (Ev D E S))⟩).2.w, l ++ (compare ops cache r ⟨w, []⟩).2.log⟩) := by
  rcases cache with ⟨_ | c⟩ | o <;> simp [compare]

theorem assign_log (ops : Ops D W E) (cache : Cache D) (r : Val D) (w : W) (l : List (Ev D E S)) :
    assign ops cache r ⟨w, l⟩ = ((assign ops cache r ⟨w, ([] : List (Ev D E S))⟩).1, (assign ops cache r ⟨w, ([] : List (Ev D E S))⟩).2.1,
      ⟨(assign ops cache r ⟨w, ([] : List (Ev D E S))⟩).2.2.w, l ++ (assign ops cache r ⟨w, []⟩).2.2.log⟩) := by
  rcases cache with old | o
  · simp only [assign]; rcases (ops.store old r w).1 with e | b <;> simp
  · simp [assign]

theorem coreTail_log (g : Glue) (ops : Ops D W E) (f : Fun D W E S) (cache : Cache D) (rs : List (LazyRes D)) (w : W) (l : List (Ev D E S)) :
    coreTail g ops f cache rs ⟨w, l⟩ = ((coreTail g ops f cache rs ⟨w, []⟩).1, (coreTail g ops f cache rs ⟨w, []⟩).2.1,
      (coreTail g ops f cache rs ⟨w, []⟩).2.2.1,
      ⟨(coreTail g ops f cache rs ⟨w, []⟩).2.2.2.w, l ++ (coreTail g ops f cache rs ⟨w, []⟩).2.2.2.log⟩) := by
  unfold coreTail
  split
  · split
    · simp
    · rename_i values _
      rw [callFun_log g f values w l]
      rcases callFun g f values ⟨w, []⟩ with ⟨o, f', ⟨w1, l1⟩⟩
      rcases o with result | e | _ | _
      · simp only
        rw [compare_log ops cache result w1 (l ++ l1), compare_log ops cache result w1 l1]
        rcases compare ops cache result ⟨w1, ([] : List (Ev D E S))⟩ with ⟨_ | changed, ⟨w2, l2⟩⟩
        · simp
        · simp only
          rw [assign_log ops cache result w2 (l ++ l1 ++ l2), assign_log ops cache result w2 (l1 ++ l2)]
          rcases assign ops cache result ⟨w2, ([] : List (Ev D E S))⟩ with ⟨_ | _, cache', ⟨w3, l3⟩⟩
          · simp
          · simp only
            split <;> simp
      all_goals simp [Out.map]
  · split <;> simp

mutual
theorem evalN_log (g : Glue) (ops : Ops D W E) (o : Obj D W E S) (w : W) (l : List (Ev D E S)) :
    evalN g ops o ⟨w, l⟩ = ((evalN g ops o ⟨w, []⟩).1, (evalN g ops o ⟨w, []⟩).2.1,
      ⟨(evalN g ops o ⟨w, []⟩).2.2.w, l ++ (evalN g ops o ⟨w, []⟩).2.2.log⟩) := by
  match o with
  | .lazyValue v c => simp [evalN]
  | .core f cache deps =>
    rw [evalN, evalN, evalDeps_log g ops deps w l]
    rcases evalDeps g ops deps ⟨w, []⟩ with ⟨q, deps', ⟨w1, l1⟩⟩
    rcases q with rs | e | _ | _
    · simp only
      rw [coreTail_log g ops f cache rs w1 (l ++ l1), coreTail_log g ops f cache rs w1 l1]
      simp
    all_goals simp
  | .unwrapped i => rw [evalN, evalN, evalN_log g ops i w l]
  | .unregularized i => rw [evalN, evalN, evalN_log g ops i w l]
theorem evalDeps_log (g : Glue) (ops : Ops D W E) (ds : List (Obj D W E S)) (w : W) (l : List (Ev D E S)) :
    evalDeps g ops ds ⟨w, l⟩ = ((evalDeps g ops ds ⟨w, []⟩).1, (evalDeps g ops ds ⟨w, []⟩).2.1,
      ⟨(evalDeps g ops ds ⟨w, []⟩).2.2.w, l ++ (evalDeps g ops ds ⟨w, []⟩).2.2.log⟩) := by
  match ds with
  | [] => simp [evalDeps]
  | d :: ds =>
    rw [evalDeps, evalDeps, evalN_log g ops d w l]
    rcases evalN g ops d ⟨w, []⟩ with ⟨q, d', ⟨w1, l1⟩⟩
    rcases q with r | e | _ | _
    · simp only
      rw [evalDeps_log g ops ds w1 (l ++ l1), evalDeps_log g ops ds w1 l1]
      simp
    all_goals simp
end

/-! ### Caches in trees -/

theorem keep_explained {evs : List (Ev D E S)} (b : Bool) {old new : Cache D} (h : Explained evs old new) : Explained evs old (keep b old new) := by
  cases b
  · exact h
  · exact .inl rfl

theorem keep_caches {evs : List (Ev D E S)} (b : Bool) {old new : Obj D W E S} (h : Each (Explained evs) (caches old) (caches new)) :
    Each (Explained evs) (caches old) (caches (keep b old new)) := by
  cases b
  · exact h
  · exact Each.refl (Explained.refl evs) _

theorem keep_cachesL {evs : List (Ev D E S)} (b : Bool) {old new : List (Obj D W E S)} (h : Each (Explained evs) (cachesL old) (cachesL new)) :
    Each (Explained evs) (cachesL old) (cachesL (keep b old new)) := by
  cases b
  · exact h
  · exact Each.refl (Explained.refl evs) _

mutual
theorem evalN_explained (g : Glue) (ops : Ops D W E) (o : Obj D W E S) (w : W) :
    Each (Explained (evalN g ops o ⟨w, []⟩).2.2.log) (caches o) (caches (evalN g ops o ⟨w, []⟩).2.1) := by
  match o with
  | .lazyValue v c => exact .nil
  | .core f cache deps =>
    have h := evalDeps_explained g ops deps w
    rw [evalN]
    rcases h0 : evalDeps g ops deps ⟨w, []⟩ with ⟨q, deps', ⟨w1, l1⟩⟩
    rw [h0] at h
    rcases q with rs | e | _ | _
    · simp only
      have h' := coreTail_explained g ops f cache rs w1
      rw [coreTail_log g ops f cache rs w1 l1]
      simp only [caches]
      refine .cons (keep_explained _ (h'.mono fun ev hev => List.mem_append_right _ hev)) (keep_cachesL _ (h.mono fun _ _ hx => hx.mono fun ev hev => ?_))
      exact List.mem_append_left _ hev
    all_goals exact .cons (.inl rfl) (keep_cachesL _ h)
  | .unwrapped i => rw [evalN]; exact keep_caches _ (evalN_explained g ops i w)
  | .unregularized i => rw [evalN]; exact keep_caches _ (evalN_explained g ops i w)
theorem evalDeps_explained (g : Glue) (ops : Ops D W E) (ds : List (Obj D W E S)) (w : W) :
    Each (Explained (evalDeps g ops ds ⟨w, []⟩).2.2.log) (cachesL ds) (cachesL (evalDeps g ops ds ⟨w, []⟩).2.1) := by
  match ds with
  | [] => exact .nil
  | d :: ds =>
    have h := evalN_explained g ops d w
    rw [evalDeps]
    rcases h0 : evalN g ops d ⟨w, []⟩ with ⟨q, d', ⟨w1, l1⟩⟩
    rw [h0] at h
    rcases q with r | e | _ | _
    · simp only
      have h' := evalDeps_explained g ops ds w1
      rw [evalDeps_log g ops ds w1 l1]
      simp only [cachesL]
      exact (h.mono fun _ _ hx => hx.mono fun ev hev => List.mem_append_left _ hev).append
        (h'.mono fun _ _ hx => hx.mono fun ev hev => List.mem_append_right _ hev)
    all_goals exact h.append (Each.refl (Explained.refl _) _)
end

end Pigro.Eff
