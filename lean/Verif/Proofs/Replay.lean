import Verif.Spec.Replay
import Verif.Proofs.LazyMore
/-!
# Effects of one evaluation
-/
namespace Pigro
variable {D W E S : Type}

theorem Replays.append {code : Nat → FnCode D W E S} {w w1 w2 : W} {a b : List (Ev D S)}
    (h1 : Replays code w a w1) (h2 : Replays code w1 b w2) : Replays code w (a ++ b) w2 := by
  induction a generalizing w with
  | nil => simp only [Replays] at h1; subst h1; exact h2
  | cons e a ih =>
    cases e with
    | call k id args seen left => exact ⟨h1.1, ih h1.2⟩
    | cmp x y => exact ih h1

theorem Replays.cmpEvents (code : Nat → FnCode D W E S) (w : W) (c : Cache D) (r : Val D) :
    Replays code w (Pigro.cmpEvents c r) w := by
  unfold Pigro.cmpEvents
  split <;> simp [Replays]

/-- From `env` to `env'` by exactly the logged invocations. -/
def EnvReplays (code : Nat → FnCode D W E S) (env env' : Env D W S) : Prop :=
  ∃ evs, env'.log = env.log ++ evs ∧ Replays code env.w evs env'.w

theorem EnvReplays.refl (code : Nat → FnCode D W E S) (env : Env D W S) :
    EnvReplays code env env := ⟨[], by simp, rfl⟩

theorem EnvReplays.trans {code : Nat → FnCode D W E S} {a b c : Env D W S}
    (h1 : EnvReplays code a b) (h2 : EnvReplays code b c) : EnvReplays code a c := by
  obtain ⟨e1, l1, r1⟩ := h1
  obtain ⟨e2, l2, r2⟩ := h2
  exact ⟨e1 ++ e2, by rw [l2, l1, List.append_assoc], r1.append r2⟩

theorem EnvReplays.invoke {code : Nat → FnCode D W E S} (u : UFn D W E S)
    (hu : code u.id = u.toFnCode) (k : Kind) (args : List (Val D)) (env : Env D W S) :
    EnvReplays code env (u.invoke k args env).2.2 := by
  refine ⟨_, rfl, ?_⟩
  rw [Replays, hu]
  exact ⟨rfl, rfl⟩

/-- The user callable inside a function object. -/
def Fun.ufn : Fun D W E S → UFn D W E S
  | .regularized u => u
  | .wrapDep u => u

theorem EnvReplays.funCall {code : Nat → FnCode D W E S} (g : Glue) (f : Fun D W E S)
    (hf : code f.ufn.id = f.ufn.toFnCode) (args : List (Val D)) (env : Env D W S) :
    EnvReplays code env (f.call g args env).2.2 := by
  cases f with
  | regularized u =>
    have h := EnvReplays.invoke u hf .fn args env
    rcases hi : u.invoke .fn args env with ⟨o, u', env'⟩
    rw [hi] at h
    cases o <;> simpa [Fun.call, hi] using h
  | wrapDep u =>
    have h := EnvReplays.invoke u hf .dep [] env
    rcases hi : u.invoke .dep [] env with ⟨o, u', env'⟩
    rw [hi] at h
    cases o <;> simpa [Fun.call, hi] using h

variable [CxxData D]

theorem EnvReplays.coreTail {code : Nat → FnCode D W E S} (g : Glue) (f : Fun D W E S)
    (hf : code f.ufn.id = f.ufn.toFnCode) (cache : Cache D) (rs : List (LazyRes D))
    (env : Env D W S) : EnvReplays code env (coreTail g f cache rs env).2.2.2 := by
  unfold Pigro.coreTail
  dsimp only
  split
  · split
    · exact .refl _ _
    · rename_i values _
      have h := EnvReplays.funCall g f hf values env
      rcases hc : f.call g values env with ⟨o, f', env'⟩
      rw [hc] at h
      cases o with
      | ok r =>
        dsimp only
        split
        · exact h.trans ⟨_, rfl, .cmpEvents _ _ _ _⟩
        · exact h
      | _ => exact h
  · split <;> exact .refl _ _

mutual
theorem evalN_replays (code : Nat → FnCode D W E S) (g : Glue) (t : Tree D W E S)
    (o : Obj D W E S) (env : Env D W S) (h : Shape t o) (hc : t.CodedBy code) :
    EnvReplays code env (evalN g o env).2.2 := by
  match t with
  | .value v => simp only [Shape] at h; subst h; exact .refl _ _
  | .function c =>
    simp only [Shape] at h
    obtain ⟨u, cache, rfl, hv, hf, rfl⟩ := h
    have hd : evalDeps g [Obj.lazyValue (.data CxxData.zero) true] env =
        (.ok [⟨.data CxxData.zero, true, !(g.resultByRef && g.valueParamByValue)⟩],
          [(Obj.lazyValue (.data CxxData.zero) true : Obj D W E S)], env) := by
      simp [evalDeps, evalN, Out.map]
    rw [evalN_core_ok g (.wrapDep u) cache _ env hd]
    exact .coreTail g (.wrapDep u) (hc u.toFnCode (by simp [Tree.codes])) cache _ env
  | .lazy c ts =>
    simp only [Shape] at h
    obtain ⟨u, cache, ds, rfl, hf, hds, rfl⟩ := h
    have hdeps := evalDeps_replays code g ts ds env hds (fun t ht c' hc' => hc c' (by
      simp only [Tree.codes, List.mem_append, List.mem_flatten, List.mem_map]
      exact .inl ⟨_, ⟨t, ht, rfl⟩, hc'⟩))
    rw [evalN_facade]
    rcases he : evalDeps g ds env with ⟨r, ds', env1⟩
    rw [he] at hdeps
    by_cases hr : r.isOk = true
    · obtain ⟨rs, rfl⟩ : ∃ rs, r = .ok rs := by
        cases r <;> simp_all [Out.isOk]
      rw [evalN_core_ok g (.regularized u) cache ds env he]
      exact hdeps.trans (.coreTail g (.regularized u) (hc u.toFnCode (by simp [Tree.codes])) cache _ _)
    · simp only [Bool.not_eq_true] at hr
      rw [evalN_core_fail g (.regularized u) cache ds env he hr]
      exact hdeps
theorem evalDeps_replays (code : Nat → FnCode D W E S) (g : Glue) (ts : List (Tree D W E S))
    (ds : List (Obj D W E S)) (env : Env D W S) (h : ShapeL ts ds)
    (hc : ∀ t ∈ ts, t.CodedBy code) :
    EnvReplays code env (evalDeps g ds env).2.2 := by
  match ts with
  | [] => simp only [ShapeL] at h; subst h; exact .refl _ _
  | t :: ts =>
    simp only [ShapeL] at h
    obtain ⟨d, ds', hd, hds, rfl⟩ := h
    have h1 := evalN_replays code g t d env hd (hc t (by simp))
    rcases he : evalN g d env with ⟨r, d', env1⟩
    rw [he] at h1
    have h2 := evalDeps_replays code g ts ds' env1 hds (fun t ht => hc t (by simp [ht]))
    cases r with
    | ok r => simp only [evalDeps, he]; exact h1.trans h2
    | _ => simp only [evalDeps, he]; exact h1
end

theorem tree_of_var (g : Glue) (w : W) (ops : List (Op D W E S)) (i : Nat) (o : Obj D W E S)
    (ho : (after g w ops).vars[i]? = some o) :
    ∃ c us, (runTrees [] ops)[i]? = some (.lazy c us) ∧ Shape (.lazy c us) o := by
  have hi := reach_inv g w ops
  have h1 : i < (runTrees [] ops).length := by
    rw [hi.shape.length]; exact (List.getElem?_eq_some_iff.1 ho).1
  have ht := List.getElem?_eq_getElem h1
  obtain ⟨c, us, hl⟩ := hi.lz _ (List.mem_of_getElem? ht)
  rw [hl] at ht
  exact ⟨c, us, ht, hi.shape.get? ht ho⟩

/-- The results of the dependencies are those of evaluating them one after another. -/
theorem evalDeps_inOrder (g : Glue) (ds : List (Obj D W E S)) : ∀ (env : Env D W S)
    (rs : List (LazyRes D)), (evalDeps g ds env).1 = .ok rs →
    InOrder (fun d (e : Env D W S) => ((evalN g d e).1, (evalN g d e).2.2)) ds env rs
      (evalDeps g ds env).2.2 := by
  induction ds with
  | nil =>
    intro env rs h
    simp only [evalDeps, Out.ok.injEq] at h
    subst h
    exact .nil _
  | cons d ds ih =>
    intro env rs h
    rcases h1 : evalN g d env with ⟨q, d', env1⟩
    rcases q with r | _ | _ | _
    · rcases h2 : (evalDeps g ds env1).1 with rs2 | _ | _ | _
      · have := ih env1 rs2 h2
        simp only [evalDeps, h1, h2, Out.map, Out.ok.injEq] at h
        subst h
        simp only [evalDeps, h1]
        exact .cons (by simp only [h1]) this
      all_goals simp [evalDeps, h1, h2, Out.map] at h
    all_goals simp [evalDeps, h1, Out.map] at h

end Pigro
