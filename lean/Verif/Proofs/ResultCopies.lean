import Verif.Spec.ResultCopies
import Verif.Proofs.LazyLog
/-!
# Lemmas: copies of results
-/
namespace Pigro.Res
variable {D W E S : Type}

section sums
variable (w : Val D → Nat)

theorem copied_append (l l' : List (Cp D)) : copied w (l ++ l') = copied w l + copied w l' := by simp [copied]
theorem moved_append (l l' : List (Cp D)) : moved w (l ++ l') = moved w l + moved w l' := by simp [moved]
theorem results_append (l l' : List (Cp D)) : results w (l ++ l') = results w l + results w l' := by simp [results]
theorem copied_nil : copied w [] = 0 := rfl
theorem moved_nil : moved w [] = 0 := rfl
theorem results_nil : results w [] = 0 := rfl

/-- Several results weigh together. -/
def sumW (rs : List (LazyRes D)) : Nat := (rs.map fun r => w r.value).sum

theorem sumW_nil : sumW w [] = 0 := rfl
theorem sumW_cons (r : LazyRes D) (rs : List (LazyRes D)) : sumW w (r :: rs) = w r.value + sumW w rs := by simp [sumW]

variable {g : Glue} (hg : g.resultByRef = false)
include hg

theorem polls_count : ∀ rs : List (LazyRes D), copied w (rs.flatMap (pass g .poll true)) = 0 ∧ moved w (rs.flatMap (pass g .poll true)) = sumW w rs ∧
    results w (rs.flatMap (pass g .poll true)) = 0
  | [] => ⟨rfl, rfl, rfl⟩
  | r :: rs => by
    obtain ⟨h1, h2, h3⟩ := polls_count rs
    simp only [List.flatMap_cons, copied_append, moved_append, results_append, h1, h2, h3, sumW_cons]
    simp [pass, hg, copied, moved, results]

theorem flags_count : ∀ rs : List (LazyRes D), copied w (flags g rs) ≤ sumW w rs ∧ moved w (flags g rs) = 0 ∧ results w (flags g rs) = 0 ∧
    (rs.any LazyRes.isChanged = false → copied w (flags g rs) = sumW w rs)
  | [] => ⟨Nat.le_refl _, rfl, rfl, fun _ => rfl⟩
  | r :: rs => by
    obtain ⟨h1, h2, h3, h4⟩ := flags_count rs
    have e1 : copied w (pass g .flag false r) = w r.value := by simp [pass, hg, copied]
    have e2 : moved w (pass g .flag false r) = 0 := by simp [pass, hg, moved]
    have e3 : results w (pass g .flag false r) = 0 := by simp [pass, hg, results]
    simp only [flags, copied_append, moved_append, results_append, sumW_cons, e1, e2, e3]
    rcases hc : r.isChanged
    · simp only [Bool.false_eq_true, if_false, List.any_cons, hc, Bool.false_or]
      refine ⟨by omega, by omega, by omega, fun h => by rw [h4 h]⟩
    · simp only [if_true, copied_nil, moved_nil, results_nil, List.any_cons, hc, Bool.true_or]
      refine ⟨by omega, trivial, trivial, by simp⟩

theorem reads_count : ∀ rs : List (LazyRes D), copied w (reads g rs) = 2 * sumW w rs ∧ results w (reads g rs) = 0
  | [] => ⟨rfl, rfl⟩
  | r :: rs => by
    obtain ⟨h1, h3⟩ := reads_count rs
    have e1 : copied w (pass g .param false r) = w r.value := by simp [pass, hg, copied]
    have e3 : results w (pass g .param false r) = 0 := by simp [pass, hg, results]
    have f1 : copied w [⟨.value, false, r.value⟩] = w r.value := by simp [copied]
    have f3 : results w [⟨.value, false, r.value⟩] = 0 := by simp [results]
    simp only [reads, copied_append, results_append, sumW_cons, e1, e3, f1, f3, h1, h3, and_true]
    omega

omit hg in
theorem packs_count (rs : List (LazyRes D)) : copied w (packs rs) = 0 ∧ results w (packs rs) = 0 := by
  have h : ∀ rs : List (LazyRes D), copied w (rs.map fun r => ⟨.pack, true, r.value⟩) = 0 ∧ results w (rs.map fun r => ⟨.pack, true, r.value⟩) = 0 := by
    intro rs
    induction rs with
    | nil => exact ⟨rfl, rfl⟩
    | cons r rs ih => simpa [copied, results] using ih
  match rs with
  | [] => exact h []
  | [r] =>
    simp only [packs]
    split
    · exact ⟨rfl, rfl⟩
    · simp [copied, results]
  | r :: r' :: rs => exact h (r :: r' :: rs)

omit hg in
theorem args_count (f : Fun D W E S) (vs : List (Val D)) : copied w (args f vs) = (vs.map w).sum ∧ results w (args f vs) = 0 := by
  have h : ∀ (b : Bool) (vs : List (Val D)), copied w (vs.map fun v => ⟨.arg, b, v⟩) = (if b then 0 else (vs.map w).sum) ∧ results w (vs.map fun v => ⟨.arg, b, v⟩) = 0 := by
    intro b vs
    induction vs with
    | nil => cases b <;> exact ⟨rfl, rfl⟩
    | cons v vs ih => cases b <;> simpa [copied, results] using ih
  cases f
  · exact h false vs
  · simp only [args, copied_append, results_append, h]
    simp

omit hg in
theorem values_weight (hw : Additive w) (rs : List (LazyRes D)) (vs : List (Val D)) (h : readValues rs = some vs) : (vs.map w).sum = sumW w rs := by
  simp only [readValues] at h
  split at h
  · simp only [Option.some.injEq, transform_eq] at h
    subst h
    match rs with
    | [] => rfl
    | [r] =>
      simp only [List.map_cons, List.map_nil, tupleCTAD]
      rcases hv : r.value with d | _ | us
      · simp [Val.asTuple, sumW, hv]
      · simp [Val.asTuple, sumW, hv]
      · simp [Val.asTuple, sumW, hv, hw.tup]
    | r :: r' :: rs => simp [tupleCTAD, sumW, Function.comp_def]
  · exact absurd h (by simp)

theorem make_count (v : Val D) : copied w (make g v) = w v ∧ moved w (make g v) = 0 ∧ results w (make g v) = w v := by
  simp [make, hg, copied, moved, results]

theorem makeCore_count (hw : w .rvoid = 0) (cache : Cache D) (v v' : Val D) (h : (cache.assign v).deref = some v') :
    copied w (makeCore g cache v) = w v' ∧ moved w (makeCore g cache v) = 0 ∧ results w (makeCore g cache v) = w v' := by
  rcases cache with o | o
  · simp only [Cache.assign, Cache.deref, Option.some.injEq] at h
    subst h
    exact make_count w hg v
  · simp only [Cache.assign, Cache.deref, Option.some.injEq] at h
    subst h
    simp [makeCore, copied, moved, results, hw]

theorem makeCore_deref (hw : w .rvoid = 0) (cache : Cache D) (v : Val D) (h : cache.deref = some v) :
    copied w (makeCore g cache v) = w v ∧ moved w (makeCore g cache v) = 0 ∧ results w (makeCore g cache v) = w v := by
  rcases cache with o | o
  · exact make_count w hg v
  · simp only [Cache.deref, Option.some.injEq] at h
    subst h
    simp [makeCore, copied, moved, results, hw]

omit hg in
theorem stores_count (hw : w .rvoid = 0) (cache : Cache D) (v v' : Val D) (h : (cache.assign v).deref = some v') : copied w (stores cache v) = w v' ∧ results w (stores cache v) = 0 := by
  rcases cache with o | o
  · simp only [Cache.assign, Cache.deref, Option.some.injEq] at h
    subst h
    simp [stores, copied, results]
  · simp only [Cache.assign, Cache.deref, Option.some.injEq] at h
    subst h
    simp [stores, copied, results, hw]

end sums

variable [CxxData D]

/-- What a result weighs, if there is one. -/
def okW (w : Val D → Nat) : Out E (LazyRes D) → Nat
  | .ok r => w r.value
  | _ => 0

omit [CxxData D] in
theorem okW_through (w : Val D → Nat) (b : Bool) (o : Out E (LazyRes D)) : okW w (o.map (LazyRes.through b)) = okW w o := by
  cases o <;> rfl

omit [CxxData D] in
theorem assign_some (cache : Cache D) (v : Val D) : ∃ v', (cache.assign v).deref = some v' := by
  rcases cache with o | o
  · exact ⟨v, rfl⟩
  · exact ⟨.rvoid, rfl⟩

/-! At most six copies -/

theorem tail_le (w : Val D → Nat) (hw : Additive w) {g : Glue} (hg : g.resultByRef = false) (f : Fun D W E S) (cache : Cache D) (rs : List (LazyRes D)) (env : Env D W S) :
    copied w (tail g f cache rs env) + 4 * okW w (coreTail g f cache rs env).1 ≤ 6 * results w (tail g f cache rs env) + 4 * sumW w rs := by
  obtain ⟨p1, _, p3⟩ := polls_count w hg rs
  have hf : copied w (if cache.engaged then flags g rs else []) ≤ sumW w rs ∧ results w (if cache.engaged then flags g rs else []) = 0 := by
    split
    · exact ⟨(flags_count w hg rs).1, (flags_count w hg rs).2.2.1⟩
    · exact ⟨Nat.zero_le _, rfl⟩
  obtain ⟨f1, f3⟩ := hf
  simp only [tail, coreTail, copied_append, results_append, p1, p3, f3]
  by_cases hc : (!cache.engaged || any LazyRes.isChanged rs) = true
  · simp only [hc, if_true]
    rcases hv : readValues rs with _ | values
    · simp only [copied_nil, results_nil, okW]; omega
    · simp only
      obtain ⟨r1, r3⟩ := reads_count w hg rs
      obtain ⟨k1, k3⟩ := packs_count w rs
      obtain ⟨a1, a3⟩ := args_count w f values
      have hvw := values_weight w hw rs values hv
      rcases hcall : f.call g values env with ⟨q, f', env'⟩
      simp only [copied_append, results_append, r1, r3, k1, k3, a1, a3, hvw]
      rcases q with result | e | _ | _
      · obtain ⟨v', hv'⟩ := assign_some cache result
        obtain ⟨m1, _, m3⟩ := makeCore_count w hg hw.rvoid cache result v' hv'
        obtain ⟨s1, s3⟩ := stores_count w hw.rvoid cache result v' hv'
        simp only [copied_append, results_append, m1, m3, s1, s3, hv', okW]
        omega
      all_goals
        simp only [copied_nil, results_nil, okW, Out.map]
        omega
  · simp only [hc, if_false, Bool.false_eq_true]
    rcases hd : cache.deref with _ | v
    · simp only [copied_nil, results_nil, okW]; omega
    · obtain ⟨m1, _, m3⟩ := makeCore_deref w hg hw.rvoid cache v hd
      simp only [m1, m3, okW]
      omega

/-- What results weigh, if there are. -/
def okWs (w : Val D → Nat) : Out E (List (LazyRes D)) → Nat
  | .ok rs => sumW w rs
  | _ => 0

mutual
theorem copiesN_le (w : Val D → Nat) (hw : Additive w) {g : Glue} (hg : g.resultByRef = false) (o : Obj D W E S) (env : Env D W S) :
    copied w (copiesN g o env) + 4 * okW w (evalN g o env).1 ≤ 6 * results w (copiesN g o env) := by
  match o with
  | .lazyValue v c =>
    obtain ⟨h1, _, h3⟩ := make_count w hg v
    simp only [copiesN, evalN, okW, h1, h3]
    omega
  | .core f cache deps =>
    have ih := copiesDeps_le w hw hg deps env
    rcases h0 : evalDeps g deps env with ⟨q, deps', env1⟩
    rw [h0] at ih
    rcases q with rs | e | _ | _
    · rw [evalN_core_ok g f cache deps _ h0]
      simp only [copiesN, h0, copied_append, results_append]
      have ht := tail_le w hw hg f cache rs env1
      simp only [okWs] at ih
      omega
    all_goals
      rw [evalN_core_fail g f cache deps _ h0 rfl]
      simp only [copiesN, h0, copied_append, results_append, copied_nil, results_nil, Out.map, okW]
      simp only [okWs] at ih
      omega
  | .unwrapped i =>
    rw [evalN_unwrapped, okW_through]
    exact copiesN_le w hw hg i env
  | .unregularized i =>
    rw [evalN_unregularized, okW_through]
    exact copiesN_le w hw hg i env
theorem copiesDeps_le (w : Val D → Nat) (hw : Additive w) {g : Glue} (hg : g.resultByRef = false) (ds : List (Obj D W E S)) (env : Env D W S) :
    copied w (copiesDeps g ds env) + 4 * okWs w (evalDeps g ds env).1 ≤ 6 * results w (copiesDeps g ds env) := by
  match ds with
  | [] => simp [copiesDeps, evalDeps, okWs, sumW, copied, results]
  | d :: ds =>
    have h1 := copiesN_le w hw hg d env
    rcases h0 : evalN g d env with ⟨q, d', env1⟩
    rw [h0] at h1
    rcases q with r | e | _ | _
    · have h2 := copiesDeps_le w hw hg ds env1
      simp only [copiesDeps, evalDeps, h0, copied_append, results_append]
      rcases h3 : evalDeps g ds env1 with ⟨q', ds', env2⟩
      rw [h3] at h2
      rcases q' with rs | _ | _ | _
      · simp only [Out.map, okWs, sumW_cons, okW] at h1 h2 ⊢
        omega
      all_goals
        simp only [Out.map, okWs, okW] at h1 h2 ⊢
        omega
    all_goals
      simp only [copiesDeps, evalDeps, h0, copied_append, results_append, copied_nil, results_nil, Out.map, okWs, okW] at h1 ⊢
      omega
end

/-! Nothing calculated -/

omit [CxxData D] in
theorem call_logs (g : Glue) (f : Fun D W E S) (vs : List (Val D)) (env : Env D W S) : ∃ ev, (f.call g vs env).2.2.log = env.log ++ [ev] := by
  rcases f with u | u
  all_goals
    simp only [Fun.call, UFn.invoke]
    split
    · rename_i h; simp only [Prod.mk.injEq] at h; obtain ⟨_, _, rfl⟩ := h; exact ⟨_, rfl⟩
    · rename_i h; simp only [Prod.mk.injEq] at h; obtain ⟨_, _, rfl⟩ := h; exact ⟨_, rfl⟩

theorem tail_settled {g : Glue} (f : Fun D W E S) (cache : Cache D) (rs : List (LazyRes D)) (env : Env D W S) (r : LazyRes D)
    (h : (coreTail g f cache rs env).1 = .ok r) (hl : (coreTail g f cache rs env).2.2.2.log = env.log) :
    rs.any LazyRes.isChanged = false ∧ cache.deref = some r.value ∧
    tail g f cache rs env = rs.flatMap (pass g .poll true) ++ flags g rs ++ makeCore g cache r.value := by
  simp only [coreTail, any_eq] at h hl
  by_cases hc : (!cache.engaged || rs.any LazyRes.isChanged) = true
  · simp only [hc, if_true] at h hl
    rcases hv : readValues rs with _ | values
    · simp only [hv] at h; cases h
    · simp only [hv] at h hl
      obtain ⟨ev, hev⟩ := call_logs g f values env
      rcases hcall : f.call g values env with ⟨q, f', env'⟩
      rw [hcall] at h hl hev
      rcases q with result | e | _ | _
      · obtain ⟨v', hv'⟩ := assign_some cache result
        simp only at hev
        simp only [hv', hev] at hl
        have := congrArg List.length hl
        simp at this
      all_goals simp [Out.map] at h
  · have hc' : cache.engaged = true ∧ rs.any LazyRes.isChanged = false := by
      rcases h1 : cache.engaged <;> rcases h2 : rs.any LazyRes.isChanged <;> simp [h1, h2] at hc ⊢
    simp only [hc, if_false, Bool.false_eq_true] at h hl
    rcases hd : cache.deref with _ | v
    · simp only [hd] at h; cases h
    · simp only [hd, Out.ok.injEq] at h
      subst h
      refine ⟨hc'.2, rfl, ?_⟩
      simp only [tail, any_eq, hc'.1, hc'.2, Bool.not_true, Bool.or_false, if_true, if_false, Bool.false_eq_true, hd]

omit [CxxData D] in
theorem log_eq {env : Env D W S} {l1 l2 : List (Ev D S)} (h : env.log ++ l1 ++ l2 = env.log) : l1 = [] ∧ l2 = [] := by
  rw [List.append_assoc] at h
  have h' : l1 ++ l2 = [] := by simpa using h
  simpa using h'

theorem evalN_adds (g : Glue) (o : Obj D W E S) (env : Env D W S) : ∃ l, (evalN g o env).2.2.log = env.log ++ l :=
  ⟨_, by rw [show env = ⟨env.w, env.log⟩ from rfl, evalN_log]⟩

theorem evalDeps_adds (g : Glue) (ds : List (Obj D W E S)) (env : Env D W S) : ∃ l, (evalDeps g ds env).2.2.log = env.log ++ l :=
  ⟨_, by rw [show env = ⟨env.w, env.log⟩ from rfl, evalDeps_log]⟩

theorem coreTail_adds (g : Glue) (f : Fun D W E S) (cache : Cache D) (rs : List (LazyRes D)) (env : Env D W S) : ∃ l, (coreTail g f cache rs env).2.2.2.log = env.log ++ l :=
  ⟨_, by rw [show env = ⟨env.w, env.log⟩ from rfl, coreTail_log]⟩

theorem core_quiet (g : Glue) (f : Fun D W E S) (cache : Cache D) (deps : List (Obj D W E S)) (env : Env D W S) (r : LazyRes D)
    (h : (evalN g (.core f cache deps) env).1 = .ok r) (hl : (evalN g (.core f cache deps) env).2.2.log = env.log) :
    ∃ rs deps' env1, evalDeps g deps env = (.ok rs, deps', env1) ∧ env1.log = env.log ∧ (coreTail g f cache rs env1).1 = .ok r ∧ (coreTail g f cache rs env1).2.2.2.log = env1.log := by
  rcases h0 : evalDeps g deps env with ⟨q, deps', env1⟩
  obtain ⟨l1, e1⟩ := evalDeps_adds g deps env
  rw [h0] at e1
  rcases q with rs | e | _ | _
  · rw [evalN_core_ok g f cache deps _ h0] at h hl
    obtain ⟨l2, e2⟩ := coreTail_adds g f cache rs env1
    simp only at hl e1
    rw [e2, e1] at hl
    obtain ⟨rfl, rfl⟩ := log_eq hl
    exact ⟨rs, deps', env1, rfl, by rw [e1, List.append_nil], h, by rw [e2, List.append_nil]⟩
  all_goals
    rw [evalN_core_fail g f cache deps _ h0 rfl] at h
    simp [Out.map] at h

theorem deps_quiet (g : Glue) (d : Obj D W E S) (ds : List (Obj D W E S)) (env : Env D W S) (rs : List (LazyRes D))
    (h : (evalDeps g (d :: ds) env).1 = .ok rs) (hl : (evalDeps g (d :: ds) env).2.2.log = env.log) :
    ∃ r d' env1 rs', evalN g d env = (.ok r, d', env1) ∧ env1.log = env.log ∧ (evalDeps g ds env1).1 = .ok rs' ∧ (evalDeps g ds env1).2.2.log = env1.log ∧ rs = r :: rs' := by
  rcases h0 : evalN g d env with ⟨q, d', env1⟩
  obtain ⟨l1, e1⟩ := evalN_adds g d env
  rw [h0] at e1
  rcases q with r | e | _ | _
  · simp only [evalDeps, h0] at h hl
    obtain ⟨l2, e2⟩ := evalDeps_adds g ds env1
    simp only at hl e1
    rw [e2, e1] at hl
    obtain ⟨rfl, rfl⟩ := log_eq hl
    rcases h3 : (evalDeps g ds env1).1 with rs' | _ | _ | _
    · rw [h3] at h
      simp only [Out.map, Out.ok.injEq] at h
      exact ⟨r, d', env1, rs', rfl, by rw [e1, List.append_nil], h3, by rw [e2, List.append_nil], h.symm⟩
    all_goals
      rw [h3] at h
      simp [Out.map] at h
  all_goals
    simp [evalDeps, h0, Out.map] at h

omit [CxxData D] in
theorem through_ok {b : Bool} {o : Out E (LazyRes D)} {r : LazyRes D} (h : o.map (LazyRes.through b) = .ok r) : ∃ r', o = .ok r' ∧ r'.value = r.value := by
  rcases o with r' | _ | _ | _
  · simp only [Out.map, Out.ok.injEq] at h
    exact ⟨r', rfl, by rw [← h]; rfl⟩
  all_goals simp [Out.map] at h

omit [CxxData D] in
theorem held_core (w : Val D → Nat) (f : Fun D W E S) (cache : Cache D) (deps : List (Obj D W E S)) : held w (.core f cache deps) = cacheWeight w cache + (deps.map (held w)).sum := by
  simp only [held, Obj.total]; rfl

mutual
theorem copiesN_settled (w : Val D → Nat) (hw : w .rvoid = 0) {g : Glue} (hg : g.resultByRef = false) (o : Obj D W E S) (env : Env D W S) (r : LazyRes D)
    (h : (evalN g o env).1 = .ok r) (hl : (evalN g o env).2.2.log = env.log) :
    copied w (copiesN g o env) + w r.value = 2 * held w o ∧ moved w (copiesN g o env) + w r.value = held w o ∧ results w (copiesN g o env) = held w o := by
  match o with
  | .lazyValue v c =>
    obtain ⟨h1, h2, h3⟩ := make_count w hg v
    simp only [evalN, Out.ok.injEq] at h
    subst h
    simp only [copiesN, h1, h2, h3, held, Obj.total]
    refine ⟨by omega, by omega, ?_⟩
    trivial
  | .core f cache deps =>
    obtain ⟨rs, deps', env1, h0, e1, t1, t2⟩ := core_quiet g f cache deps env r h hl
    obtain ⟨i1, i2, i3⟩ := copiesDeps_settled w hw hg deps env rs (by rw [h0]) (by rw [h0]; exact e1)
    obtain ⟨c1, c2, c3⟩ := tail_settled f cache rs env1 r t1 t2
    obtain ⟨p1, p2, p3⟩ := polls_count w hg rs
    obtain ⟨_, f2, f3, f4⟩ := flags_count w hg rs
    obtain ⟨m1, m2, m3⟩ := makeCore_deref w hg hw cache r.value c2
    simp only [copiesN, h0, copied_append, moved_append, results_append, c3, p1, p2, p3, f2, f3, f4 c1, m1, m2, m3, held_core, cacheWeight, c2]
    omega
  | .unwrapped i =>
    rw [evalN_unwrapped] at h hl
    obtain ⟨r', h', hr⟩ := through_ok h
    rw [← hr]
    simpa only [copiesN, held, Obj.total] using copiesN_settled w hw hg i env r' h' hl
  | .unregularized i =>
    rw [evalN_unregularized] at h hl
    obtain ⟨r', h', hr⟩ := through_ok h
    rw [← hr]
    simpa only [copiesN, held, Obj.total] using copiesN_settled w hw hg i env r' h' hl
theorem copiesDeps_settled (w : Val D → Nat) (hw : w .rvoid = 0) {g : Glue} (hg : g.resultByRef = false) (ds : List (Obj D W E S)) (env : Env D W S) (rs : List (LazyRes D))
    (h : (evalDeps g ds env).1 = .ok rs) (hl : (evalDeps g ds env).2.2.log = env.log) :
    copied w (copiesDeps g ds env) + sumW w rs = 2 * (ds.map (held w)).sum ∧ moved w (copiesDeps g ds env) + sumW w rs = (ds.map (held w)).sum ∧
    results w (copiesDeps g ds env) = (ds.map (held w)).sum := by
  match ds with
  | [] =>
    simp only [evalDeps, Out.ok.injEq] at h
    subst h
    exact ⟨rfl, rfl, rfl⟩
  | d :: ds =>
    obtain ⟨r, d', env1, rs', h0, e1, t1, t2, rfl⟩ := deps_quiet g d ds env rs h hl
    obtain ⟨i1, i2, i3⟩ := copiesN_settled w hw hg d env r (by rw [h0]) (by rw [h0]; exact e1)
    obtain ⟨j1, j2, j3⟩ := copiesDeps_settled w hw hg ds env1 rs' t1 t2
    simp only [copiesDeps, h0, copied_append, moved_append, results_append, sumW_cons, List.map_cons, List.sum_cons]
    omega
end

/-! By reference -/

omit [CxxData D] in
theorem polls_byRef {g : Glue} (hg : g.resultByRef = true) (rs : List (LazyRes D)) : rs.flatMap (pass g .poll true) = [] := by
  simp [pass, hg]

omit [CxxData D] in
theorem flags_byRef {g : Glue} (hg : g.resultByRef = true) : ∀ rs : List (LazyRes D), flags g rs = []
  | [] => rfl
  | r :: rs => by simp [flags, pass, hg, flags_byRef hg rs]

omit [CxxData D] in
theorem makeCore_byRef {g : Glue} (hg : g.resultByRef = true) (cache : Cache D) (v : Val D) : makeCore g cache v = [] := by
  cases cache <;> simp [makeCore, make, hg]

mutual
theorem copiesN_byRef {g : Glue} (hg : g.resultByRef = true) (o : Obj D W E S) (env : Env D W S) (r : LazyRes D)
    (h : (evalN g o env).1 = .ok r) (hl : (evalN g o env).2.2.log = env.log) : copiesN g o env = [] := by
  match o with
  | .lazyValue v c => simp [copiesN, make, hg]
  | .core f cache deps =>
    obtain ⟨rs, deps', env1, h0, e1, t1, t2⟩ := core_quiet g f cache deps env r h hl
    have i := copiesDeps_byRef hg deps env rs (by rw [h0]) (by rw [h0]; exact e1)
    obtain ⟨_, _, c3⟩ := tail_settled f cache rs env1 r t1 t2
    simp only [copiesN, h0, i, c3, polls_byRef hg, flags_byRef hg, makeCore_byRef hg, List.append_nil]
  | .unwrapped i =>
    rw [evalN_unwrapped] at h hl
    obtain ⟨r', h', _⟩ := through_ok h
    exact copiesN_byRef hg i env r' h' hl
  | .unregularized i =>
    rw [evalN_unregularized] at h hl
    obtain ⟨r', h', _⟩ := through_ok h
    exact copiesN_byRef hg i env r' h' hl
theorem copiesDeps_byRef {g : Glue} (hg : g.resultByRef = true) (ds : List (Obj D W E S)) (env : Env D W S) (rs : List (LazyRes D))
    (h : (evalDeps g ds env).1 = .ok rs) (hl : (evalDeps g ds env).2.2.log = env.log) : copiesDeps g ds env = [] := by
  match ds with
  | [] => rfl
  | d :: ds =>
    obtain ⟨r, d', env1, rs', h0, e1, t1, t2, rfl⟩ := deps_quiet g d ds env rs h hl
    have i := copiesN_byRef hg d env r (by rw [h0]) (by rw [h0]; exact e1)
    have j := copiesDeps_byRef hg ds env1 rs' t1 t2
    simp only [copiesDeps, h0, i, j, List.append_nil]
end

/-! Everything calculated for the first time -/

theorem tail_first (w : Val D → Nat) (hw : Additive w) {g : Glue} (hg : g.resultByRef = false) (f : Fun D W E S) (cache : Cache D) (hc : cache.engaged = false) (rs : List (LazyRes D))
    (env : Env D W S) (r : LazyRes D) (h : (coreTail g f cache rs env).1 = .ok r) :
    copied w (tail g f cache rs env) = 3 * sumW w rs + 2 * w r.value ∧ results w (tail g f cache rs env) = w r.value := by
  obtain ⟨p1, _, p3⟩ := polls_count w hg rs
  simp only [coreTail, hc, Bool.not_false, Bool.true_or, if_true] at h
  simp only [tail, copied_append, results_append, p1, p3, hc, Bool.not_false, Bool.true_or, if_true, Bool.false_eq_true, if_false, copied_nil, results_nil]
  rcases hv : readValues rs with _ | values
  · simp only [hv] at h; cases h
  · simp only [hv] at h ⊢
    obtain ⟨r1, r3⟩ := reads_count w hg rs
    obtain ⟨k1, k3⟩ := packs_count w rs
    obtain ⟨a1, a3⟩ := args_count w f values
    have hvw := values_weight w hw rs values hv
    rcases hcall : f.call g values env with ⟨q, f', env'⟩
    rw [hcall] at h
    simp only [copied_append, results_append, r1, r3, k1, k3, a1, a3, hvw]
    rcases q with result | e | _ | _
    · obtain ⟨v', hv'⟩ := assign_some cache result
      obtain ⟨m1, _, m3⟩ := makeCore_count w hg hw.rvoid cache result v' hv'
      obtain ⟨s1, s3⟩ := stores_count w hw.rvoid cache result v' hv'
      simp only [hv', Out.ok.injEq] at h
      subst h
      simp only [copied_append, results_append, m1, m3, s1, s3]
      omega
    all_goals simp [Out.map] at h

omit [CxxData D] in
theorem constants_core (w : Val D → Nat) (f : Fun D W E S) (cache : Cache D) (deps : List (Obj D W E S)) : constants w (.core f cache deps) = (deps.map (constants w)).sum := by
  simp only [constants, Obj.total, Nat.zero_add]; rfl

theorem core_ok (g : Glue) (f : Fun D W E S) (cache : Cache D) (deps : List (Obj D W E S)) (env : Env D W S) (r : LazyRes D) (h : (evalN g (.core f cache deps) env).1 = .ok r) :
    ∃ rs deps' env1, evalDeps g deps env = (.ok rs, deps', env1) ∧ (coreTail g f cache rs env1).1 = .ok r := by
  rcases h0 : evalDeps g deps env with ⟨q, deps', env1⟩
  rcases q with rs | e | _ | _
  · rw [evalN_core_ok g f cache deps _ h0] at h
    exact ⟨rs, deps', env1, rfl, h⟩
  all_goals
    rw [evalN_core_fail g f cache deps _ h0 rfl] at h
    simp [Out.map] at h

theorem deps_ok (g : Glue) (d : Obj D W E S) (ds : List (Obj D W E S)) (env : Env D W S) (rs : List (LazyRes D)) (h : (evalDeps g (d :: ds) env).1 = .ok rs) :
    ∃ r d' env1 rs', evalN g d env = (.ok r, d', env1) ∧ (evalDeps g ds env1).1 = .ok rs' ∧ rs = r :: rs' := by
  rcases h0 : evalN g d env with ⟨q, d', env1⟩
  rcases q with r | e | _ | _
  · simp only [evalDeps, h0] at h
    rcases h3 : (evalDeps g ds env1).1 with rs' | _ | _ | _
    · rw [h3] at h
      simp only [Out.map, Out.ok.injEq] at h
      exact ⟨r, d', env1, rs', rfl, h3, h.symm⟩
    all_goals
      rw [h3] at h
      simp [Out.map] at h
  all_goals
    simp [evalDeps, h0, Out.map] at h

omit [CxxData D] in
theorem unset_core {f : Fun D W E S} {cache : Cache D} {deps : List (Obj D W E S)} (h : unset (.core f cache deps)) : cache.engaged = false ∧ ∀ d ∈ deps, unset d := by
  simp only [unset, Obj.total, Nat.add_eq_zero_iff] at h
  refine ⟨by rcases hc : cache.engaged <;> simp_all, ?_⟩
  intro d hd
  have := List.sum_eq_zero_iff_forall_eq_nat.1 h.2
  exact this _ (List.mem_map.2 ⟨d, hd, rfl⟩)

mutual
theorem copiesN_first (w : Val D → Nat) (hw : Additive w) {g : Glue} (hg : g.resultByRef = false) (o : Obj D W E S) (env : Env D W S) (r : LazyRes D)
    (h : (evalN g o env).1 = .ok r) (hu : unset o) : copied w (copiesN g o env) + constants w o + 3 * w r.value = 5 * results w (copiesN g o env) := by
  match o with
  | .lazyValue v c =>
    obtain ⟨h1, h2, h3⟩ := make_count w hg v
    simp only [evalN, Out.ok.injEq] at h
    subst h
    simp only [copiesN, h1, h3, constants, Obj.total]
    omega
  | .core f cache deps =>
    obtain ⟨rs, deps', env1, h0, t1⟩ := core_ok g f cache deps env r h
    obtain ⟨u1, u2⟩ := unset_core hu
    have i1 := copiesDeps_first w hw hg deps env rs (by rw [h0]) u2
    obtain ⟨c1, c3⟩ := tail_first w hw hg f cache u1 rs env1 r t1
    simp only [copiesN, h0, copied_append, results_append, c1, c3, constants_core]
    omega
  | .unwrapped i =>
    rw [evalN_unwrapped] at h
    obtain ⟨r', h', hr⟩ := through_ok h
    rw [← hr]
    simpa only [copiesN, constants, Obj.total] using copiesN_first w hw hg i env r' h' (by simpa only [unset, Obj.total] using hu)
  | .unregularized i =>
    rw [evalN_unregularized] at h
    obtain ⟨r', h', hr⟩ := through_ok h
    rw [← hr]
    simpa only [copiesN, constants, Obj.total] using copiesN_first w hw hg i env r' h' (by simpa only [unset, Obj.total] using hu)
theorem copiesDeps_first (w : Val D → Nat) (hw : Additive w) {g : Glue} (hg : g.resultByRef = false) (ds : List (Obj D W E S)) (env : Env D W S) (rs : List (LazyRes D))
    (h : (evalDeps g ds env).1 = .ok rs) (hu : ∀ d ∈ ds, unset d) :
    copied w (copiesDeps g ds env) + (ds.map (constants w)).sum + 3 * sumW w rs = 5 * results w (copiesDeps g ds env) := by
  match ds with
  | [] =>
    simp only [evalDeps, Out.ok.injEq] at h
    subst h
    rfl
  | d :: ds =>
    obtain ⟨r, d', env1, rs', h0, t1, rfl⟩ := deps_ok g d ds env rs h
    have i := copiesN_first w hw hg d env r (by rw [h0]) (hu d (by simp))
    have j := copiesDeps_first w hw hg ds env1 rs' t1 (fun d' h' => hu d' (by simp [h']))
    simp only [copiesDeps, h0, copied_append, results_append, sumW_cons, List.map_cons, List.sum_cons]
    omega
end

/-! How many results -/

/-- The number of `LazyResult`s made. -/
def count (l : List (Cp D)) : Nat := (l.filter fun c => decide (c.place = .result)).length

omit [CxxData D] in
theorem count_append (l l' : List (Cp D)) : count (l ++ l') = count l + count l' := by simp [count]

omit [CxxData D] in
theorem count_other : ∀ (l : List (Cp D)), (∀ c ∈ l, c.place ≠ .result) → count l = 0
  | [], _ => rfl
  | c :: l, h => by
    have h1 := h c (by simp)
    have h2 := count_other l (fun c' h' => h c' (by simp [h']))
    simp only [count, List.filter_cons, h1, decide_false, Bool.false_eq_true, if_false] at h2 ⊢
    exact h2

omit [CxxData D] in
theorem flags_other (g : Glue) : ∀ (rs : List (LazyRes D)), ∀ c ∈ flags g rs, c.place ≠ .result
  | [], c, h => by simp [flags] at h
  | r :: rs, c, h => by
    simp only [flags, List.mem_append] at h
    rcases h with h | h
    · simp only [pass] at h
      split at h <;> simp at h
      subst h; simp
    · split at h
      · simp at h
      · exact flags_other g rs c h

omit [CxxData D] in
theorem reads_other (g : Glue) : ∀ (rs : List (LazyRes D)), ∀ c ∈ reads g rs, c.place ≠ .result
  | [], c, h => by simp [reads] at h
  | r :: rs, c, h => by
    simp only [reads, List.mem_append, List.mem_singleton] at h
    rcases h with (h | h) | h
    · simp only [pass] at h
      split at h <;> simp at h
      subst h; simp
    · subst h; simp
    · exact reads_other g rs c h

omit [CxxData D] in
theorem packs_other (rs : List (LazyRes D)) : ∀ c ∈ packs rs, c.place ≠ .result := by
  intro c h
  simp only [packs] at h
  split at h
  · split at h
    · simp at h
    · simp at h; subst h; simp
  · obtain ⟨r, _, rfl⟩ := List.mem_map.1 h
    simp

omit [CxxData D] in
theorem args_other (f : Fun D W E S) (vs : List (Val D)) : ∀ c ∈ args f vs, c.place ≠ .result := by
  intro c h
  cases f
  · obtain ⟨r, _, rfl⟩ := List.mem_map.1 h
    simp
  · simp only [args, List.mem_append] at h
    rcases h with h | h
    all_goals
      obtain ⟨r, _, rfl⟩ := List.mem_map.1 h
      simp

omit [CxxData D] in
theorem polls_other (g : Glue) (rs : List (LazyRes D)) : ∀ c ∈ rs.flatMap (pass g .poll true), c.place ≠ .result := by
  intro c h
  obtain ⟨r, _, h⟩ := List.mem_flatMap.1 h
  simp only [pass] at h
  split at h <;> simp at h
  subst h; simp

omit [CxxData D] in
theorem stores_other (cache : Cache D) (v : Val D) : ∀ c ∈ stores cache v, c.place ≠ .result := by
  intro c h
  cases cache <;> simp [stores] at h
  subst h; simp

/-- One for a result other than void. -/
def one (cache : Cache D) : Nat := match cache with
  | .opt _ => 1
  | .rv _ => 0

omit [CxxData D] in
theorem makeCore_one {g : Glue} (hg : g.resultByRef = false) (cache : Cache D) (v : Val D) : count (makeCore g cache v) = one cache := by
  cases cache <;> simp [makeCore, make, hg, count, one]

theorem tail_one {g : Glue} (hg : g.resultByRef = false) (f : Fun D W E S) (cache : Cache D) (rs : List (LazyRes D)) (env : Env D W S) (r : LazyRes D)
    (h : (coreTail g f cache rs env).1 = .ok r) : count (tail g f cache rs env) = one cache := by
  have e1 := count_other _ (polls_other g rs)
  have e2 : count (if cache.engaged then flags g rs else []) = 0 := by
    split
    · exact count_other _ (flags_other g rs)
    · rfl
  simp only [coreTail] at h
  simp only [tail, count_append, e1, e2, Nat.zero_add]
  by_cases hc : (!cache.engaged || any LazyRes.isChanged rs) = true
  · simp only [hc, if_true] at h ⊢
    rcases hv : readValues rs with _ | values
    · simp only [hv] at h; cases h
    · simp only [hv] at h ⊢
      rcases hcall : f.call g values env with ⟨q, f', env'⟩
      rw [hcall] at h
      simp only [count_append, count_other _ (reads_other g rs), count_other _ (packs_other rs), count_other _ (args_other f values)]
      rcases q with result | e | _ | _
      · simp only [count_append, count_other _ (stores_other cache result), makeCore_one hg]
        omega
      all_goals simp [Out.map] at h
  · simp only [hc, if_false, Bool.false_eq_true] at h ⊢
    rcases hd : cache.deref with _ | v
    · simp only [hd] at h; cases h
    · simp only [makeCore_one hg]

omit [CxxData D] in
theorem nodes_core (f : Fun D W E S) (cache : Cache D) (deps : List (Obj D W E S)) : nodes (.core f cache deps) = one cache + (deps.map nodes).sum := by
  simp only [nodes, Obj.total]
  cases cache <;> rfl

mutual
theorem copiesN_nodes {g : Glue} (hg : g.resultByRef = false) (o : Obj D W E S) (env : Env D W S) (r : LazyRes D)
    (h : (evalN g o env).1 = .ok r) : count (copiesN g o env) = nodes o := by
  match o with
  | .lazyValue v c => simp [copiesN, make, hg, count, nodes, Obj.total]
  | .core f cache deps =>
    obtain ⟨rs, deps', env1, h0, t1⟩ := core_ok g f cache deps env r h
    have i := copiesDeps_nodes hg deps env rs (by rw [h0])
    simp only [copiesN, h0, count_append, tail_one hg f cache rs env1 r t1, nodes_core, i]
    omega
  | .unwrapped i =>
    rw [evalN_unwrapped] at h
    obtain ⟨r', h', _⟩ := through_ok h
    simpa only [copiesN, nodes, Obj.total] using copiesN_nodes hg i env r' h'
  | .unregularized i =>
    rw [evalN_unregularized] at h
    obtain ⟨r', h', _⟩ := through_ok h
    simpa only [copiesN, nodes, Obj.total] using copiesN_nodes hg i env r' h'
theorem copiesDeps_nodes {g : Glue} (hg : g.resultByRef = false) (ds : List (Obj D W E S)) (env : Env D W S) (rs : List (LazyRes D))
    (h : (evalDeps g ds env).1 = .ok rs) : count (copiesDeps g ds env) = (ds.map nodes).sum := by
  match ds with
  | [] => rfl
  | d :: ds =>
    obtain ⟨r, d', env1, rs', h0, t1, rfl⟩ := deps_ok g d ds env rs h
    have i := copiesN_nodes hg d env r (by rw [h0])
    have j := copiesDeps_nodes hg ds env1 rs' t1
    simp only [copiesDeps, h0, count_append, i, j, List.map_cons, List.sum_cons]
end

/-! Results are copied -/

/-- The member of a `LazyResult` is initialised by a copy. -/
def Copies (l : List (Cp D)) : Prop := ∀ c ∈ l, c.place = .result → c.move = false

omit [CxxData D] in
theorem Copies.append {l l' : List (Cp D)} (h : Copies l) (h' : Copies l') : Copies (l ++ l') := by
  intro c hc
  rcases List.mem_append.1 hc with hc | hc
  · exact h c hc
  · exact h' c hc

omit [CxxData D] in
theorem Copies.other {l : List (Cp D)} (h : ∀ c ∈ l, c.place ≠ .result) : Copies l := fun c hc hp => absurd hp (h c hc)

omit [CxxData D] in
theorem Copies.nil : Copies ([] : List (Cp D)) := fun c hc => absurd hc (by simp)

omit [CxxData D] in
theorem make_copies (g : Glue) (v : Val D) : Copies (make g v) := by
  intro c hc
  simp only [make] at hc
  split at hc <;> simp at hc
  subst hc; simp

omit [CxxData D] in
theorem makeCore_copies (g : Glue) (cache : Cache D) (v : Val D) : Copies (makeCore g cache v) := by
  cases cache
  · exact make_copies g v
  · exact Copies.nil

theorem tail_copies (g : Glue) (f : Fun D W E S) (cache : Cache D) (rs : List (LazyRes D)) (env : Env D W S) : Copies (tail g f cache rs env) := by
  unfold tail
  refine Copies.append (Copies.append (.other (polls_other g rs)) ?_) ?_
  · split
    · exact .other (flags_other g rs)
    · exact .nil
  · split
    · split
      · exact .nil
      · refine Copies.append (Copies.append (Copies.append (.other (reads_other g rs)) (.other (packs_other rs))) (.other (args_other f _))) ?_
        split
        · exact Copies.append (.other (stores_other cache _)) (makeCore_copies g cache _)
        · exact .nil
    · split
      · exact makeCore_copies g cache _
      · exact .nil

mutual
theorem copiesN_copies (g : Glue) (o : Obj D W E S) (env : Env D W S) : Copies (copiesN g o env) := by
  match o with
  | .lazyValue v c => exact make_copies g v
  | .core f cache deps =>
    unfold copiesN
    refine Copies.append (copiesDeps_copies g deps env) ?_
    split
    · exact tail_copies g f cache _ _
    · exact .nil
  | .unwrapped i => exact copiesN_copies g i env
  | .unregularized i => exact copiesN_copies g i env
theorem copiesDeps_copies (g : Glue) (ds : List (Obj D W E S)) (env : Env D W S) : Copies (copiesDeps g ds env) := by
  match ds with
  | [] => exact .nil
  | d :: ds =>
    unfold copiesDeps
    refine Copies.append (copiesN_copies g d env) ?_
    split
    · exact copiesDeps_copies g ds _
    · exact .nil
end

/-! Calls -/

theorem value_rv (g : Glue) : ∀ (o : Obj D W E S) (env : Env D W S) (r : LazyRes D), (evalN g o env).1 = .ok r → o.valueIsRV = true → r.value = .rvoid
  | .lazyValue v c, env, r, h, hv => by
    simp only [evalN, Out.ok.injEq] at h
    subst h
    cases v <;> simp [Obj.valueIsRV] at hv ⊢
  | .core f cache deps, env, r, h, hv => by
    obtain ⟨rs, deps', env1, _, t1⟩ := core_ok g f cache deps env r h
    rcases cache with c | c
    · simp [Obj.valueIsRV] at hv
    · simp only [coreTail, Cache.deref, Cache.assign] at t1
      split at t1
      · split at t1
        · cases t1
        · split at t1
          · simp only [Out.ok.injEq] at t1
            subst t1; rfl
          · rename_i values _ o _ _ hno _
            rcases o with x | _ | _ | _
            · exact absurd rfl (hno x)
            all_goals simp [Out.map] at t1
      · simp only [Out.ok.injEq] at t1
        subst t1; rfl
  | .unwrapped i, env, r, h, hv => by
    rw [evalN_unwrapped] at h
    obtain ⟨r', h', hr⟩ := through_ok h
    rw [← hr]
    exact value_rv g i env r' h' hv
  | .unregularized i, env, r, h, hv => by
    rw [evalN_unregularized] at h
    obtain ⟨r', h', hr⟩ := through_ok h
    rw [← hr]
    exact value_rv g i env r' h' hv

/-- A call is a poll of the object inside, and its result. -/
theorem call0_poll (w : Val D → Nat) (hw : w .rvoid = 0) (g : Glue) : ∀ (o : Obj D W E S) (env : Env D W S) (v : Option (Val D)), (call0 g o env).1 = .ok v →
    ∃ (i : Obj D W E S) (r : LazyRes D), (evalN g i env).1 = .ok r ∧ (evalN g i env).2.2 = (call0 g o env).2.2 ∧ copies0 g o env = copiesN g i env ++ [⟨.out, !g.resultByRef, r.value⟩] ∧
      w r.value = outWeight w v ∧ (∀ val core, Obj.total val core i = Obj.total val core o) ∧ i.valueIsRV = o.valueIsRV ∧ ∀ x, v = some x → r.value = x
  | .unwrapped i, env, v, h => by
    simp only [call0] at h ⊢
    rcases h0 : evalN g (.unwrapped i) env with ⟨q, o', env'⟩
    rw [h0] at h
    rcases q with r | _ | _ | _
    · simp only at h
      split at h
      · rename_i hlive
        simp only [Out.ok.injEq] at h
        subst h
        refine ⟨.unwrapped i, r, by rw [h0], by rw [h0], ?_, rfl, fun _ _ => rfl, rfl, fun x hx => Option.some.inj hx⟩
        simp [copies0, h0, hlive]
      · cases h
    all_goals simp [Out.map] at h
  | .unregularized i, env, v, h => by
    simp only [call0] at h ⊢
    rcases h0 : call0 g i env with ⟨q, i', env'⟩
    rw [h0] at h
    rcases q with v' | _ | _ | _
    · simp only [Out.map, Out.ok.injEq] at h
      obtain ⟨j, r, h1, h2, h3, h4, h5, h6, h7⟩ := call0_poll w hw g i env v' (by rw [h0])
      refine ⟨j, r, h1, by rw [h2, h0], h3, ?_, fun a b => by rw [h5 a b, Obj.total.eq_4], h6, ?_⟩
      all_goals rcases hv : i.valueIsRV
      · simp only [hv, Bool.false_eq_true, if_false] at h
        rw [h4, h]
      · simp only [hv, if_true] at h
        rw [← h, value_rv g j env r h1 (h6.trans hv), hw]
        rfl
      · simp only [hv, Bool.false_eq_true, if_false] at h
        rw [← h]
        exact h7
      · simp only [hv, if_true] at h
        rw [← h]
        simp
    all_goals simp [Out.map] at h
  | .lazyValue _ _, _, _, h => by simp [call0] at h
  | .core _ _ _, _, _, h => by simp [call0] at h

theorem copies0_le (w : Val D → Nat) (hw : Additive w) {g : Glue} (hg : g.resultByRef = false) : ∀ (o : Obj D W E S) (env : Env D W S), copied w (copies0 g o env) ≤ 6 * results w (copies0 g o env)
  | .unwrapped i, env => by
    have h := copiesN_le w hw hg (.unwrapped i) env
    have e : ∀ r : LazyRes D, copied w (if r.live then [⟨.out, !g.resultByRef, r.value⟩] else []) = 0 ∧ results w (if r.live then [⟨.out, !g.resultByRef, r.value⟩] else []) = 0 := by
      intro r
      rw [hg]
      split <;> exact ⟨rfl, rfl⟩
    simp only [copies0, copied_append, results_append]
    rcases h0 : evalN g (.unwrapped i) env with ⟨q, o', env'⟩
    rcases q with r | _ | _ | _
    · simp only [(e r).1, (e r).2]; omega
    all_goals
      simp only [copied_nil, results_nil]; omega
  | .unregularized i, env => by
    simpa only [copies0] using copies0_le w hw hg i env
  | .lazyValue _ _, _ => Nat.zero_le _
  | .core _ _ _, _ => Nat.zero_le _

/-! What `is_changed` is asked -/

/-- The copies made for `is_changed`. -/
def asked (l : List (Cp D)) : List (Cp D) := l.filter fun c => decide (c.place = .flag)

omit [CxxData D] in
theorem asked_append (l l' : List (Cp D)) : asked (l ++ l') = asked l ++ asked l' := by simp [asked]

omit [CxxData D] in
theorem asked_none (l : List (Cp D)) (h : ∀ c ∈ l, c.place ≠ .flag) : asked l = [] := by
  simp only [asked, List.filter_eq_nil_iff, decide_eq_true_eq]
  exact h

omit [CxxData D] in
theorem flags_asked {g : Glue} (hg : g.resultByRef = false) : ∀ rs : List (LazyRes D),
    asked (flags g rs) = (rs.takeWhile (fun r => !r.isChanged) ++ (rs.dropWhile fun r => !r.isChanged).take 1).map fun r => ⟨.flag, false, r.value⟩
  | [] => rfl
  | r :: rs => by
    rw [flags, asked_append]
    have e : asked (pass g .flag false r) = [⟨.flag, false, r.value⟩] := by simp [pass, hg, asked]
    rcases hc : r.isChanged
    · simp only [Bool.false_eq_true, if_false, e, flags_asked hg rs, List.takeWhile_cons, List.dropWhile_cons, hc, Bool.not_false, if_true, List.map_append, List.map_cons, List.cons_append, List.nil_append]
    · rw [e]
      simp [hc, asked]

omit [CxxData D] in
theorem makeCore_asked (g : Glue) (cache : Cache D) (v : Val D) : asked (makeCore g cache v) = [] := by
  cases cache <;> simp [makeCore, make, asked]

omit [CxxData D] in
theorem reads_asked {g : Glue} (hg : g.resultByRef = false) : ∀ rs : List (LazyRes D), asked (reads g rs) = []
  | [] => rfl
  | r :: rs => by
    rw [reads, asked_append, reads_asked hg rs]
    simp [asked, pass, hg]

theorem tail_asked {g : Glue} (hg : g.resultByRef = false) (f : Fun D W E S) (cache : Cache D) (rs : List (LazyRes D)) (env : Env D W S) :
    asked (tail g f cache rs env) = if cache.engaged then (rs.takeWhile (fun r => !r.isChanged) ++ (rs.dropWhile fun r => !r.isChanged).take 1).map fun r => ⟨.flag, false, r.value⟩ else [] := by
  have e1 : asked (rs.flatMap (pass g .poll true)) = [] := by
    apply asked_none
    intro c h
    obtain ⟨r, _, h⟩ := List.mem_flatMap.1 h
    simp [pass, hg] at h
    subst h; simp
  have e2 : asked (if cache.engaged then flags g rs else []) = if cache.engaged then (rs.takeWhile (fun r => !r.isChanged) ++ (rs.dropWhile fun r => !r.isChanged).take 1).map fun r => ⟨.flag, false, r.value⟩ else [] := by
    split
    · exact flags_asked hg rs
    · rfl
  unfold tail
  rw [asked_append, asked_append, e1, e2, List.nil_append]
  refine (congrArg _ ?_).trans (List.append_nil _)
  split
  · split
    · rfl
    · rename_i values _
      have r1 := reads_asked hg rs
      have p1 : asked (packs rs) = [] := by
        apply asked_none
        intro c h
        simp only [packs] at h
        split at h
        · split at h
          · simp at h
          · simp at h; subst h; simp
        · obtain ⟨r, _, rfl⟩ := List.mem_map.1 h
          simp
      have a1 : asked (args f values) = [] := by
        apply asked_none
        intro c h
        cases f
        · obtain ⟨r, _, rfl⟩ := List.mem_map.1 h
          simp
        · simp only [args, List.mem_append] at h
          rcases h with h | h
          all_goals
            obtain ⟨r, _, rfl⟩ := List.mem_map.1 h
            simp
      rw [asked_append, asked_append, asked_append, r1, p1, a1]
      split
      · rename_i result _ _ _
        rw [asked_append, makeCore_asked]
        cases cache <;> simp [stores, asked]
      · rfl
  · split
    · exact makeCore_asked g cache _
    · rfl

end Pigro.Res
