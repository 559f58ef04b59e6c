import Verif.Spec.Remember
import Verif.Proofs.LazyMore
/-!
# Proof: lazy functions and functions with a memory (C95)
-/
namespace Pigro.Rem
variable {D W E S : Type}

/-- Nothing is handed over by copy, and results are values. -/
def KeepsAll (g : Glue) : Prop := g.Retains ∧ g.regParamByValue = false ∧ g.wrapParamByValue = false ∧ g.resultByRef = false

section
variable [CxxData D]

mutual
/-- The object is in the state the node says. -/
def Rel : Node D W E S → Obj D W E S → Prop
  | .value v, o => o = .lazyValue v false
  | .function u, o => ∃ cache, o = .core (.wrapDep u) cache [.lazyValue (.data CxxData.zero) true] ∧ cache.Fits u.ret
  | .lazy u last given deps, o => ∃ cache ds, o = .unregularized (.unwrapped (.core (.regularized u) cache ds)) ∧ cache.Fits u.ret ∧ last = cache.val? ∧
      given.length = deps.length ∧ (last.isSome = true → given = ds.map Obj.lastVal) ∧ RelL deps ds
/-- ... all of them. -/
def RelL : List (Node D W E S) → List (Obj D W E S) → Prop
  | [], os => os = []
  | n :: ns, os => ∃ o os', os = o :: os' ∧ Rel n o ∧ RelL ns os'
end

/-- Asking the node and evaluating the object come to the same. -/
structure Same1 (last : Option (Val D)) (r : Except E (Val D) × Node D W E S × World D W) (q : Out E (LazyRes D) × Obj D W E S × Env D W S) : Prop where
  ok : ∀ v, r.1 = .ok v → q.1 = .ok ⟨v, flag last v, true⟩ ∧ q.2.1.lastVal = some v
  error : ∀ e, r.1 = .error e → q.1 = .thrown e ∧ q.2.1.lastVal = last
  rel : Rel r.2.1 q.2.1
  view : r.2.2 = view q.2.2

/-- The same for several. -/
structure SameL (given lasts : List (Option (Val D))) (r : Except E (List (Val D)) × List (Node D W E S) × List (Option (Val D)) × World D W)
    (q : Out E (List (LazyRes D)) × List (Obj D W E S) × Env D W S) : Prop where
  ok : ∀ vs, r.1 = .ok vs → ∃ rs, q.1 = .ok rs ∧ rs.map (·.value) = vs ∧ rs.map (·.isChanged) = List.zipWith flag lasts vs ∧ rs.all (·.live) = true ∧ r.2.2.1 = q.2.1.map Obj.lastVal
  error : ∀ e, r.1 = .error e → q.1 = .thrown e ∧ (given = lasts → r.2.2.1 = q.2.1.map Obj.lastVal)
  length : r.2.2.1.length = r.2.1.length
  rel : RelL r.2.1 q.2.1
  view : r.2.2.2 = view q.2.2

omit [CxxData D] in
theorem ran_append (a b : List (Ev D S)) : ran (a ++ b) = ran a ++ ran b := by
  induction a with
  | nil => rfl
  | cons x a ih => cases x <;> simp [ran, ih]

omit [CxxData D] in
theorem ran_cmpEvents (c : Cache D) (v : Val D) : ran (cmpEvents c v : List (Ev D S)) = [] := by
  rcases c with (_ | _) | _ <;> rfl

omit [CxxData D] in
theorem view_invoke (u : UFn D W E S) (k : Kind) (args : List (Val D)) (env : Env D W S) (l : List (Ev D S)) (hl : ran l = []) :
    (apply u args (view env)).2.2 = view { (u.invoke k args env).2.2 with log := (u.invoke k args env).2.2.log ++ l } := by
  simp [apply, view, UFn.invoke, ran_append, ran, hl]

omit [CxxData D] in
theorem spread_eq (vs : List (Val D)) : tupleCTAD Val.asTuple vs = spread vs := by
  match vs with
  | [] => rfl
  | [v] => cases v <;> simp [tupleCTAD, Val.asTuple, spread]
  | a :: b :: vs => simp [tupleCTAD, spread]

theorem flag_eq (a : Option (Val D)) (b : Val D) : flag a b = differs a b := by
  cases a <;> rfl

/-- The end of a call that runs the function. -/
theorem tail_run (g : Glue) (hr : g.resultByRef = false) (f : UFn D W E S → Fun D W E S) (k : Kind) (u : UFn D W E S) (cache : Cache D) (rs : List (LazyRes D)) (env : Env D W S)
    (args : List (Val D)) (hf : cache.Fits u.ret) (h : (!cache.engaged || any LazyRes.isChanged rs) = true) (ha : readValues rs = some args) (args' : List (Val D))
    (hc : (f u).call g args env = (match (u.invoke k args' env).1 with
      | .ok v => .ok (u.ret.regularize v)
      | .error e => .thrown e, f (u.invoke k args' env).2.1, (u.invoke k args' env).2.2)) :
    (∀ v, (apply u args' (view env)).1 = .ok v → ∃ cache' env', coreTail g (f u) cache rs env = (.ok ⟨v, flag cache.val? v, true⟩, f (apply u args' (view env)).2.1, cache', env') ∧
      cache'.val? = some v ∧ cache'.Fits u.ret ∧ (apply u args' (view env)).2.2 = view env') ∧
    (∀ e, (apply u args' (view env)).1 = .error e → ∃ env', coreTail g (f u) cache rs env = (.thrown e, f (apply u args' (view env)).2.1, cache, env') ∧ (apply u args' (view env)).2.2 = view env') := by
  have hlive : g.coreLive cache = true := by cases cache <;> simp [Glue.coreLive, hr]
  rcases hx : (u.run u.st args' env.w).1 with e | v
  · refine ⟨fun v hv => ?_, fun e' he => ?_⟩
    · simp [apply, view, hx, Except.map] at hv
    · have he : e' = e := by simpa [apply, view, hx, Except.map, eq_comm] using he
      subst he
      have hc' : (f u).call g args env = (.thrown e', f (u.invoke k args' env).2.1, (u.invoke k args' env).2.2) := by
        rw [hc]; simp [UFn.invoke, hx]
      refine ⟨(u.invoke k args' env).2.2, ?_, ?_⟩
      · simp only [coreTail, h, if_true, ha, hc', Out.map]
        rfl
      · have := view_invoke u k args' env [] rfl
        simpa using this
  · refine ⟨fun v' hv => ?_, fun e he => ?_⟩
    · have hv' : v' = u.ret.regularize v := by simpa [apply, view, hx, Except.map, eq_comm] using hv
      subst hv'
      have hc' : (f u).call g args env = (.ok (u.ret.regularize v), f (u.invoke k args' env).2.1, (u.invoke k args' env).2.2) := by
        rw [hc]; simp [UFn.invoke, hx]
      refine ⟨cache.assign (u.ret.regularize v), _, ?_, Cache.assign_val? hf v, Cache.assign_fits _ hf, view_invoke u k args' env _ (ran_cmpEvents cache (u.ret.regularize v))⟩
      rw [coreTail_run g (f u) _ cache rs env _ args u.ret v h ha hc' hf, hlive, Cache.ne_val? hf v]
      rfl
    · simp [apply, view, hx, Except.map] at he

mutual
theorem eval_same (hrefl : ReflNe D) (g : Glue) (hg : KeepsAll g) : ∀ (n : Node D W E S) (o : Obj D W E S) (env : Env D W S), Rel n o → Same1 o.lastVal (eval n (view env)) (evalN g o env)
  | .value v, o, env, h => by
    rw [Rel] at h
    subst h
    rw [eval, evalN]
    refine ⟨fun v' hv => ?_, fun e he => (by cases he), by rw [Rel], rfl⟩
    cases hv
    simp [Obj.lastVal, flag, Val.ne_refl hrefl, hg.2.2.2]
  | .function u, o, env, h => by
    rw [Rel] at h
    obtain ⟨cache, rfl, hf⟩ := h
    have hd : evalDeps g [(.lazyValue (.data CxxData.zero) true : Obj D W E S)] env = (.ok [⟨.data CxxData.zero, true, true⟩], [.lazyValue (.data CxxData.zero) true], env) := by
      simp [evalDeps, evalN, hg.2.2.2, Out.map]
    rw [evalN_core_ok g _ _ _ _ hd, hg.1.1, hg.1.2.1, keep_false, keep_false, keep_false]
    obtain ⟨h1, h2⟩ := tail_run g hg.2.2.2 Fun.wrapDep .dep u cache [⟨.data CxxData.zero, true, true⟩] env [.data CxxData.zero] hf (by simp [any_eq]) (by simp [readValues, transform_eq, tupleCTAD, Val.asTuple]) []
      (by simp only [Fun.call, hg.2.2.1, keep_false]; rcases u.invoke .dep [] env with ⟨_ | _, _, _⟩ <;> rfl)
    rw [eval]
    rcases ha : apply u [] (view env) with ⟨r, u', s'⟩
    have hret : u'.ret = u.ret := by
      have : u' = (apply u [] (view env)).2.1 := by rw [ha]
      rw [this]; rfl
    rw [ha] at h1 h2
    rcases r with e | v
    · obtain ⟨env', q1, q2⟩ := h2 e rfl
      rw [q1]
      refine ⟨fun v hv => (by cases hv), fun e' he => ?_, ?_, q2⟩
      · cases he; exact ⟨rfl, rfl⟩
      · rw [Rel]; exact ⟨cache, rfl, by rw [hret]; exact hf⟩
    · obtain ⟨cache', env', q1, q2, q3, q4⟩ := h1 v rfl
      rw [q1]
      refine ⟨fun v' hv => ?_, fun e' he => (by cases he), ?_, q4⟩
      · cases hv; exact ⟨rfl, q2⟩
      · rw [Rel]; exact ⟨cache', rfl, by rw [hret]; exact q3⟩
  | .lazy u last given deps, o, env, h => by
    rw [Rel] at h
    obtain ⟨cache, ds, rfl, hf, rfl, hlen, hgiven, hds⟩ := h
    have hL := evalAll_same hrefl g hg deps ds given env hlen hds
    have hthru : ∀ q : Out E (LazyRes D), q.map (LazyRes.through false) = q := by
      intro q; cases q <;> simp [Out.map, LazyRes.through]
    rw [evalN_facade, hg.2.2.2, Bool.false_and, hthru, hg.1.2.2.1, hg.1.2.2.2, Bool.or_self, keep_false, eval]
    simp only [Obj.lastVal]
    rcases hs : evalAll deps given (view env) with ⟨r, deps', given', s'⟩
    rcases hq : evalDeps g ds env with ⟨q, ds', env1⟩
    rw [hs, hq] at hL
    rcases r with e | vs
    · obtain ⟨l1, l2⟩ := hL.error e rfl
      simp only at l1
      subst l1
      rw [evalN_core_fail g _ cache ds env hq rfl, hg.1.2.1, keep_false]
      refine ⟨fun v hv => (by cases hv), fun e' he => ?_, ?_, hL.view⟩
      · cases he; exact ⟨rfl, rfl⟩
      · simp only [Rel]
        exact ⟨cache, ds', rfl, hf, rfl, hL.length, fun hl => l2 (hgiven hl), hL.rel⟩
    · obtain ⟨rs, l1, l2, l3, l4, l5⟩ := hL.ok vs rfl
      simp only at l1 l5
      subst l1
      have hs' : s' = view env1 := hL.view
      rw [evalN_core_ok g _ cache ds env hq, hg.1.1, hg.1.2.1, keep_false, keep_false, keep_false]
      have ha : readValues rs = some (spread vs) := by
        rw [readValues, l4, if_pos rfl, transform_eq, ← spread_eq, ← l2]
      have hany : any LazyRes.isChanged rs = (List.zipWith flag (ds.map Obj.lastVal) vs).any id := by
        rw [any_eq, ← l3, List.any_map]; rfl
      have hzip : cache.val?.isSome = true → any LazyRes.isChanged rs = (List.zipWith differs given vs).any id := by
        intro hc
        rw [hany, hgiven hc]
        have : (flag : Option (Val D) → Val D → Bool) = differs := by funext a b; exact flag_eq a b
        rw [this]
      have hrun : (!cache.engaged || any LazyRes.isChanged rs) = true → Same1 cache.val?
          (match apply u (spread vs) s' with
          | (.ok r, u', s'') => ((.ok r : Except E (Val D)), Node.lazy u' (some r) given' deps', s'')
          | (.error e, u', s'') => (.error e, Node.lazy u' cache.val? given' deps', s''))
          ((coreTail g (.regularized u) cache rs env1).1, .unregularized (.unwrapped (.core (coreTail g (.regularized u) cache rs env1).2.1 (coreTail g (.regularized u) cache rs env1).2.2.1 ds')),
            (coreTail g (.regularized u) cache rs env1).2.2.2) := by
        intro hfire
        obtain ⟨h1, h2⟩ := tail_run g hg.2.2.2 Fun.regularized .fn u cache rs env1 (spread vs) hf hfire ha (spread vs)
          (by simp only [Fun.call, hg.2.1, keep_false]; rcases u.invoke .fn (spread vs) env1 with ⟨_ | _, _, _⟩ <;> rfl)
        rw [hs']
        rcases hap : apply u (spread vs) (view env1) with ⟨r, u', s''⟩
        rw [hap] at h1 h2
        have hu' : u' = (apply u (spread vs) (view env1)).2.1 := by rw [hap]
        have hret : u'.ret = u.ret := by rw [hu']; rfl
        rcases r with e | v
        · obtain ⟨env', q1, q2⟩ := h2 e rfl
          rw [q1]
          refine ⟨fun v hv => (by cases hv), fun e' he => ?_, ?_, q2⟩
          · cases he; exact ⟨rfl, rfl⟩
          · simp only [Rel]
            exact ⟨cache, ds', rfl, by rw [hret]; exact hf, rfl, hL.length, fun _ => l5, hL.rel⟩
        · obtain ⟨cache', env', q1, q2, q3, q4⟩ := h1 v rfl
          rw [q1]
          refine ⟨fun v' hv => ?_, fun e' he => (by cases he), ?_, q4⟩
          · cases hv; exact ⟨rfl, q2⟩
          · simp only [Rel]
            exact ⟨cache', ds', rfl, by rw [hret]; exact q3, q2.symm, hL.length, fun _ => l5, hL.rel⟩
      simp only
      rcases hl : cache.val? with _ | r
      · rw [hl] at hrun
        exact hrun (by rw [Cache.engaged_val?, hl]; rfl)
      · rw [hl] at hrun hzip
        rcases hz : (List.zipWith differs given vs).any id with _ | _
        · have hskip := coreTail_skip g (.regularized u) cache rs env1 r (by rw [hzip rfl, hz]) hl
          rw [hskip]
          have hlive : g.coreLive cache = true := by cases cache <;> simp [Glue.coreLive, hg.2.2.2]
          refine ⟨fun v' hv => ?_, fun e' he => (by cases he), ?_, hs'⟩
          · cases hv
            exact ⟨by simp [flag, Val.ne_refl hrefl, hlive], hl⟩
          · simp only [Rel]
            exact ⟨cache, ds', rfl, hf, hl.symm, hL.length, fun _ => l5, hL.rel⟩
        · exact hrun (by rw [hzip rfl, hz, Bool.or_true])
theorem evalAll_same (hrefl : ReflNe D) (g : Glue) (hg : KeepsAll g) : ∀ (ns : List (Node D W E S)) (os : List (Obj D W E S)) (given : List (Option (Val D))) (env : Env D W S), given.length = ns.length → RelL ns os →
    SameL given (os.map Obj.lastVal) (evalAll ns given (view env)) (evalDeps g os env)
  | [], os, given, env, hlen, h => by
    rw [RelL] at h
    subst h
    rw [evalAll, evalDeps]
    refine ⟨fun vs hv => ?_, fun e he => (by cases he), rfl, by rw [RelL], rfl⟩
    cases hv
    exact ⟨[], rfl, rfl, rfl, rfl, rfl⟩
  | n :: ns, os, given, env, hlen, h => by
    rw [RelL] at h
    obtain ⟨o, os', rfl, h1, h2⟩ := h
    have hS := eval_same hrefl g hg n o env h1
    rw [evalAll, evalDeps]
    rcases hs : eval n (view env) with ⟨r, n', s'⟩
    rcases hq : evalN g o env with ⟨q, o', env1⟩
    rw [hs, hq] at hS
    rcases given with _ | ⟨g0, gs⟩
    · simp at hlen
    rcases r with e | v
    · obtain ⟨l1, l2⟩ := hS.error e rfl
      simp only at l1 l2
      subst l1
      simp only [Out.map]
      refine ⟨fun v hv => (by cases hv), fun e' he => ?_, by simpa using hlen, ?_, hS.view⟩
      · cases he
        refine ⟨rfl, fun hgiv => ?_⟩
        simp only [List.map_cons, l2]
        exact hgiv
      · simp only [RelL]
        exact ⟨o', os', rfl, hS.rel, h2⟩
    · obtain ⟨l1, l2⟩ := hS.ok v rfl
      simp only at l1 l2
      subst l1
      have hv : s' = view env1 := hS.view
      subst hv
      have hL := evalAll_same hrefl g hg ns os' gs env1 (by simpa using hlen) h2
      simp only [List.tail_cons]
      rcases hs2 : evalAll ns gs (view env1) with ⟨r2, ns', gs', s2⟩
      rcases hq2 : evalDeps g os' env1 with ⟨q2, os2, env2⟩
      rw [hs2, hq2] at hL
      refine ⟨fun vs hvs => ?_, fun e' he => ?_, ?_, ?_, hL.view⟩
      · rcases r2 with e2 | vs2
        · cases hvs
        · cases hvs
          obtain ⟨rs, m1, m2, m3, m4, m5⟩ := hL.ok vs2 rfl
          simp only at m1 m5
          subst m1
          exact ⟨_, rfl, by simp [m2], by simp [m3], by simp [m4], by simp [l2, m5]⟩
      · rcases r2 with e2 | vs2
        · cases he
          obtain ⟨m1, m2⟩ := hL.error e' rfl
          simp only at m1 m2
          subst m1
          refine ⟨rfl, fun hgiv => ?_⟩
          simp only [List.map_cons, List.cons.injEq] at hgiv ⊢
          exact ⟨l2.symm, m2 hgiv.2⟩
        · cases he
      · simp only [List.length_cons]
        rw [hL.length]
      · simp only [RelL]
        exact ⟨o', os2, rfl, hS.rel, hL.rel⟩
end

/-! ### Programs -/

/-- A lazy function. -/
def Node.IsLazy (n : Node D W E S) : Prop := ∃ u last given deps, n = .lazy u last given deps

theorem RelL.get : ∀ {ns : List (Node D W E S)} {os : List (Obj D W E S)}, RelL ns os → ∀ i : Nat, (ns[i]? = none ∧ os[i]? = none) ∨ ∃ n o, ns[i]? = some n ∧ os[i]? = some o ∧ Rel n o
  | [], _, h, i => by rw [RelL] at h; subst h; simp
  | n :: ns, _, h, i => by
    rw [RelL] at h
    obtain ⟨o, os', rfl, h1, h2⟩ := h
    rcases i with _ | i
    · exact .inr ⟨n, o, rfl, rfl, h1⟩
    · simpa using h2.get i

theorem RelL.append : ∀ {ns : List (Node D W E S)} {os : List (Obj D W E S)} {n : Node D W E S} {o : Obj D W E S}, RelL ns os → Rel n o → RelL (ns ++ [n]) (os ++ [o])
  | [], _, n, o, h, h' => by rw [RelL] at h; subst h; simp only [List.nil_append, RelL]; exact ⟨o, [], rfl, h', rfl⟩
  | m :: ns, _, n, o, h, h' => by
    rw [RelL] at h
    obtain ⟨x, os', rfl, h1, h2⟩ := h
    simp only [List.cons_append, RelL]
    exact ⟨x, os' ++ [o], rfl, h1, h2.append h'⟩

theorem RelL.set : ∀ {ns : List (Node D W E S)} {os : List (Obj D W E S)} {n : Node D W E S} {o : Obj D W E S} (i : Nat), RelL ns os → Rel n o → RelL (ns.set i n) (os.set i o)
  | [], _, n, o, i, h, h' => by rw [RelL] at h; subst h; simp [RelL]
  | m :: ns, _, n, o, i, h, h' => by
    rw [RelL] at h
    obtain ⟨x, os', rfl, h1, h2⟩ := h
    rcases i with _ | i
    · simp only [List.set_cons_zero, RelL]
      exact ⟨o, os', rfl, h', h2⟩
    · simp only [List.set_cons_succ, RelL]
      exact ⟨x, os'.set i o, rfl, h1, h2.set i h'⟩

/-- Evaluating keeps it a lazy function. -/
theorem eval_isLazy (n : Node D W E S) (s : World D W) (h : n.IsLazy) : (eval n s).2.1.IsLazy := by
  obtain ⟨u, last, given, deps, rfl⟩ := h
  rw [eval]
  rcases evalAll deps given s with ⟨e | vs, deps', given', s'⟩
  · exact ⟨_, _, _, _, rfl⟩
  · simp only
    split
    · exact ⟨_, _, _, _, rfl⟩
    · rcases apply u (spread vs) s' with ⟨e | v, u', s''⟩ <;> exact ⟨_, _, _, _, rfl⟩

/-- A call without argument. -/
theorem call0_same (g : Glue) (hg : KeepsAll g) (n : Node D W E S) (o : Obj D W E S) (env : Env D W S) (hn : n.IsLazy) (h : Rel n o) :
    (call0 g o env).2 = (evalN g o env).2 ∧
    (∀ v b, (evalN g o env).1 = .ok ⟨v, b, true⟩ → (call0 g o env).1 = .ok (n.shown v)) ∧ (∀ e, (evalN g o env).1 = .thrown e → (call0 g o env).1 = .thrown e) := by
  obtain ⟨u, last, given, deps, rfl⟩ := hn
  rw [Rel] at h
  obtain ⟨cache, ds, rfl, hf, -⟩ := h
  have hthru : ∀ q : Out E (LazyRes D), q.map (LazyRes.through false) = q := by
    intro q; cases q <;> simp [Out.map, LazyRes.through]
  have hrv : ∀ v, (if (Obj.unwrapped (.core (.regularized u) cache ds : Obj D W E S)).valueIsRV = true then none else some v) = (Node.lazy u last given deps).shown v := by
    intro v
    rcases cache with c | c
    · simp only [Cache.Fits] at hf; simp [Obj.valueIsRV, Node.shown, hf]
    · simp only [Cache.Fits] at hf; simp [Obj.valueIsRV, Node.shown, hf]
  rw [evalN_facade, hg.2.2.2, Bool.false_and, hthru, call0, call0, evalN_unwrapped, hg.2.2.2, Bool.false_and, hthru]
  rcases hx : evalN g (.core (.regularized u) cache ds) env with ⟨r | e | _ | _, o', env'⟩
  · refine ⟨?_, fun v b hv => ?_, fun e he => (by cases he)⟩
    · simp only [hg.1.2.2.1, hg.1.2.2.2, keep_false, Bool.or_self]
    · simp only [Out.ok.injEq] at hv
      subst hv
      simp only [if_true, Out.map]
      exact congrArg Out.ok (hrv v)
  · refine ⟨?_, fun v b hv => (by cases hv), fun e' he => ?_⟩
    · simp only [hg.1.2.2.1, hg.1.2.2.2, keep_false, Bool.or_self]
    · cases he; rfl
  · refine ⟨?_, fun v b hv => (by cases hv), fun e he => (by cases he)⟩
    simp only [hg.1.2.2.1, hg.1.2.2.2, keep_false, Bool.or_self]
  · refine ⟨?_, fun v b hv => (by cases hv), fun e he => (by cases he)⟩
    simp only [hg.1.2.2.1, hg.1.2.2.2, keep_false, Bool.or_self]

/-- Making a dependency. -/
theorem dependency_same {ns : List (Node D W E S)} {os : List (Obj D W E S)} (h : RelL ns os) (hl : ∀ n ∈ ns, n.IsLazy) (a : ArgRef D W E S) :
    (dependency ns a = none ∧ (a.resolve os).bind ensureLazy = none) ∨ ∃ n o, dependency ns a = some n ∧ (a.resolve os).bind ensureLazy = some o ∧ Rel n o := by
  rcases a with v | u | i
  · exact .inr ⟨.value v, .lazyValue v false, rfl, rfl, by rw [Rel]⟩
  · by_cases hu : u.ret = .void
    · exact .inl ⟨by simp [dependency, hu], by simp [ArgRef.resolve, ensureLazy, DepArg.caps, ensureSelect, ensureViable, moreConstrained, hu]⟩
    · refine .inr ⟨.function u, detailLazy (.wrapDep u) [.lazyValue (.data CxxData.zero) true], by simp [dependency, hu],
        by simp [ArgRef.resolve, ensureLazy, DepArg.caps, ensureSelect, ensureViable, moreConstrained, hu], ?_⟩
      rw [Rel]
      exact ⟨_, rfl, Cache.empty_fits _⟩
  · rcases h.get i with ⟨h1, h2⟩ | ⟨n, o, h1, h2, h3⟩
    · exact .inl ⟨h1, by simp [ArgRef.resolve, h2]⟩
    · refine .inr ⟨n, o, h1, ?_, h3⟩
      obtain ⟨u, last, given, deps, rfl⟩ := hl n (List.mem_of_getElem? h1)
      rw [Rel] at h3
      obtain ⟨cache, ds, rfl, -⟩ := h3
      simp [ArgRef.resolve, h2, ensureLazy, DepArg.caps, Obj.caps, ensureSelect, ensureViable, moreConstrained]

theorem dependencies_same {ns : List (Node D W E S)} {os : List (Obj D W E S)} (h : RelL ns os) (hl : ∀ n ∈ ns, n.IsLazy) : ∀ as : List (ArgRef D W E S),
    (dependencies ns as = none ∧ (resolveAll os as).bind ensureAll = none) ∨ ∃ ds es, dependencies ns as = some ds ∧ (resolveAll os as).bind ensureAll = some es ∧ RelL ds es
  | [] => .inr ⟨[], [], rfl, rfl, by rw [RelL]⟩
  | a :: as => by
    rw [dependencies, resolveAll]
    rcases dependency_same h hl a with ⟨h1, h2⟩ | ⟨n, o, h1, h2, h3⟩
    · refine .inl ⟨by rw [h1], ?_⟩
      rcases hr : a.resolve os with _ | d
      · rfl
      · rw [hr] at h2
        simp only [Option.bind_some] at h2
        rcases resolveAll os as with _ | ds
        · rfl
        · simp only [Option.bind_some, ensureAll, h2]
    · rcases hr : a.resolve os with _ | d
      · rw [hr] at h2; cases h2
      rw [hr] at h2
      simp only [Option.bind_some] at h2
      rcases dependencies_same h hl as with ⟨k1, k2⟩ | ⟨ds, es, k1, k2, k3⟩
      · refine .inl ⟨by rw [h1, k1], ?_⟩
        rcases hr2 : resolveAll os as with _ | ds
        · rfl
        · rw [hr2] at k2
          simp only [Option.bind_some] at k2
          simp only [Option.bind_some, ensureAll, h2, k2]
      · refine .inr ⟨n :: ds, o :: es, by rw [h1, k1], ?_, by simp only [RelL]; exact ⟨o, es, rfl, h3, k3⟩⟩
        rcases hr2 : resolveAll os as with _ | ds
        · rw [hr2] at k2; cases k2
        · rw [hr2] at k2
          simp only [Option.bind_some] at k2
          simp only [Option.bind_some, ensureAll, h2, k2]

/-- States correspond. -/
structure SameS (s : List (Node D W E S) × World D W) (t : State D W E S) : Prop where
  rel : RelL s.1 t.vars
  lz : ∀ n ∈ s.1, n.IsLazy
  view : s.2 = view t.env

theorem RelL.length : ∀ {ns : List (Node D W E S)} {os : List (Obj D W E S)}, RelL ns os → ns.length = os.length
  | [], _, h => by rw [RelL] at h; subst h; rfl
  | n :: ns, _, h => by
    rw [RelL] at h
    obtain ⟨o, os', rfl, -, h2⟩ := h
    simp [h2.length]

theorem step_same (hrefl : ReflNe D) (g : Glue) (hg : KeepsAll g) (s : List (Node D W E S) × World D W) (t : State D W E S) (h : SameS s t) (op : Op D W E S) :
    answer (Pigro.step g t op).1 = some (step s op).1 ∧ SameS (step s op).2 (Pigro.step g t op).2 := by
  obtain ⟨vars, w⟩ := s
  obtain ⟨hrel, hlz, hview⟩ := h
  simp only at hrel hlz hview
  subst hview
  have hset : ∀ (i : Nat) (n : Node D W E S), n.IsLazy → ∀ m ∈ vars.set i n, m.IsLazy := by
    intro i n hn m hm
    rcases List.mem_or_eq_of_mem_set hm with hm | rfl
    · exact hlz m hm
    · exact hn
  cases op with
  | mk f deps =>
    simp only [step, Pigro.step]
    rcases dependencies_same hrel hlz deps with ⟨h1, h2⟩ | ⟨ds, es, h1, h2, h3⟩
    · have : (resolveAll t.vars deps).bind (pigroLazy f) = none := by
        rcases hr : resolveAll t.vars deps with _ | rs
        · rfl
        · rw [hr] at h2
          simp only [Option.bind_some] at h2
          simp [pigroLazy, h2]
      rw [h1, this]
      exact ⟨rfl, hrel, hlz, rfl⟩
    · have : (resolveAll t.vars deps).bind (pigroLazy f) = some (.unregularized (.unwrapped (detailLazy (.regularized f) es))) := by
        rcases hr : resolveAll t.vars deps with _ | rs
        · rw [hr] at h2; cases h2
        · rw [hr] at h2
          simp only [Option.bind_some] at h2
          simp [pigroLazy, h2]
      rw [h1, this]
      refine ⟨rfl, hrel.append ?_, ?_, rfl⟩
      · simp only [fresh, Rel]
        exact ⟨_, es, rfl, Cache.empty_fits _, by rw [Fun.ret, Cache.empty_val?], by simp, by simp, h3⟩
      · intro n hn
        rcases List.mem_append.1 hn with hn | hn
        · exact hlz n hn
        · simp only [List.mem_singleton] at hn; exact ⟨_, _, _, _, hn⟩
  | copy i =>
    simp only [step, Pigro.step]
    rcases hrel.get i with ⟨h1, h2⟩ | ⟨n, o, h1, h2, h3⟩
    · rw [h1, h2]; exact ⟨rfl, hrel, hlz, rfl⟩
    · rw [h1, h2]
      refine ⟨rfl, hrel.append h3, ?_, rfl⟩
      intro m hm
      rcases List.mem_append.1 hm with hm | hm
      · exact hlz m hm
      · simp only [List.mem_singleton] at hm; subst hm; exact hlz m (List.mem_of_getElem? h1)
  | call i =>
    rcases hrel.get i with ⟨h1, h2⟩ | ⟨n, o, h1, h2, h3⟩
    · simp only [step, Pigro.step, h1, h2]; exact ⟨rfl, hrel, hlz, rfl⟩
    · have hn := hlz n (List.mem_of_getElem? h1)
      have hS := eval_same hrefl g hg n o t.env h3
      obtain ⟨c1, c2, c3⟩ := call0_same g hg n o t.env hn h3
      have hn' := eval_isLazy n (Rem.view t.env) hn
      rw [step_call g t i o h2]
      simp only [step, h1]
      rcases he : eval n (Rem.view t.env) with ⟨r, n', s'⟩
      rw [he] at hS hn'
      refine ⟨?_, ?_, hset i n' hn', ?_⟩
      · rcases r with e | v
        · rw [c3 e (hS.error e rfl).1]; rfl
        · rw [c2 v _ (hS.ok v rfl).1]; rfl
      · simp only; rw [c1]; exact hrel.set i hS.rel
      · simp only; rw [c1]; exact hS.view
  | poll i =>
    rcases hrel.get i with ⟨h1, h2⟩ | ⟨n, o, h1, h2, h3⟩
    · simp only [step, Pigro.step, h1, h2]; exact ⟨rfl, hrel, hlz, rfl⟩
    · have hn := hlz n (List.mem_of_getElem? h1)
      have hS := eval_same hrefl g hg n o t.env h3
      have hn' := eval_isLazy n (Rem.view t.env) hn
      have hlast : o.lastVal = n.last := by
        obtain ⟨u, last, given, deps, rfl⟩ := hn
        rw [Rel] at h3
        obtain ⟨cache, ds, rfl, -, rfl, -⟩ := h3
        rfl
      rw [step_poll g t i o h2]
      simp only [step, h1]
      rcases he : eval n (Rem.view t.env) with ⟨r, n', s'⟩
      rw [he] at hS hn'
      refine ⟨?_, hrel.set i hS.rel, hset i n' hn', hS.view⟩
      rcases r with e | v
      · rw [(hS.error e rfl).1]; rfl
      · rw [(hS.ok v rfl).1]
        simp only [answer, if_true, Except.map, ← hlast, flag_eq]
  | poke f => exact ⟨rfl, hrel, hlz, rfl⟩

theorem run_same (hrefl : ReflNe D) (g : Glue) (hg : KeepsAll g) : ∀ (ops : List (Op D W E S)) (s : List (Node D W E S) × World D W) (t : State D W E S), SameS s t →
    (Pigro.run g t ops).1.map answer = (run s ops).1.map some ∧ SameS (run s ops).2 (Pigro.run g t ops).2
  | [], s, t, h => ⟨rfl, h⟩
  | op :: ops, s, t, h => by
    obtain ⟨h1, h2⟩ := step_same hrefl g hg s t h op
    obtain ⟨h3, h4⟩ := run_same hrefl g hg ops _ _ h2
    exact ⟨by simp only [Pigro.run, run, List.map_cons, h1, h3], h4⟩

end
end Pigro.Rem
