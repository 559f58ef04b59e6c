import Verif.Proofs.ResultCopies
import Verif.Proofs.LazyHist
import Verif.Props.Demo
/-!
# C91: copies of results

`copies0 g o env` lists the copies and moves of results that a call of `o` makes, in order (Model/ResultCopies.lean). `copied w`, `moved w`: what is copied and moved weighs, e.g. in bytes allocated;
`results w`: the results calculated or found in caches, including constants, each counted once. `resultByRef = true` is the deduction guide lazy.h:23-24.
-/
namespace Pigro.Res
open Demo
variable {D W E S : Type} [CxxData D]

/-- **C91**: without the deduction guide, a call that returns without invoking any function of the user copies all constants and all cached results of the object twice, except the one it returns, which it
copies once, and moves all of them once. -/
theorem C91_settled (w : Val D → Nat) (hw : w .rvoid = 0) (g : Glue) (hg : g.resultByRef = false) (o : Obj D W E S) (env : Env D W S) (v : Option (Val D))
    (h : (call0 g o env).1 = .ok v) (hl : (call0 g o env).2.2.log = env.log) :
    copied w (copies0 g o env) + outWeight w v = 2 * held w o ∧ moved w (copies0 g o env) = held w o := by
  obtain ⟨i, r, h1, h2, h3, h4, h5, -⟩ := call0_poll w hw g o env v h
  obtain ⟨c1, c2, -⟩ := copiesN_settled w hw hg i env r h1 (by rw [h2]; exact hl)
  have hh : held w i = held w o := h5 _ _
  have e1 : copied w [⟨.out, !g.resultByRef, r.value⟩] = 0 := by rw [hg]; rfl
  have e2 : moved w [⟨.out, !g.resultByRef, r.value⟩] = w r.value := by rw [hg]; simp [moved]
  rw [h3, copied_append, moved_append, e1, e2, ← h4]
  omega

/-- `lazy(sum, lazy(halfArg, 10), 7)`, called once. -/
def again : State Int Int Nat Nat := after .retained 5 [.mk halfArg [.value (.data 10)], .mk sum [.var 0, .value (.data 7)], .call 1]

mutual
/-- All values weigh 1, `void` nothing, a tuple what its elements weigh. -/
def size : V → Nat
  | .data _ => 1
  | .rvoid => 0
  | .tup vs => sizes vs
def sizes : List V → Nat
  | [] => 0
  | v :: vs => size v + sizes vs
end

theorem size_additive : Additive size := by
  refine ⟨by simp [size], fun vs => ?_⟩
  rw [size]
  induction vs with
  | nil => rfl
  | cons v vs ih => simp [sizes, ih]

/-- The object. -/
def againO : Obj Int Int Nat Nat := .unregularized (.unwrapped (.core (.regularized ⟨sum.toFnCode, 1⟩) (.opt (some (.data 12)))
    [.unregularized (.unwrapped (.core (.regularized ⟨halfArg.toFnCode, 1⟩) (.opt (some (.data 5))) [.lazyValue (.data 10) false])), .lazyValue (.data 7) false]))

theorem again_obj : again.vars[1]? = some againO := rfl

example : (call0 .retained againO again.env).1 = .ok (some (.data 12)) ∧ (call0 .retained againO again.env).2.2.log = again.env.log ∧ held size againO = 4 ∧
    copied size (copies0 .retained againO again.env) = 7 ∧ moved size (copies0 .retained againO again.env) = 4 := by
  have hh : held size againO = 4 := by
    simp [againO, held, Obj.total, cacheWeight, Cache.deref, size]
  obtain ⟨c1, c2⟩ := C91_settled size (by simp [size]) .retained rfl againO again.env (some (.data 12)) rfl rfl
  refine ⟨rfl, rfl, hh, ?_, ?_⟩
  · rw [hh] at c1
    simp only [outWeight, size] at c1
    omega
  · rw [c2, hh]

/-- **C91**: with the deduction guide, such a call copies what it returns, and nothing else. (In the pinned code such a call is undefined, C16; this is for code that keeps the guide and caches.) -/
theorem C91_by_reference (g : Glue) (hg : g.resultByRef = true) (o : Obj D W E S) (env : Env D W S) (v : Option (Val D))
    (h : (call0 g o env).1 = .ok v) (hl : (call0 g o env).2.2.log = env.log) : ∃ x, copies0 g o env = [⟨.out, false, x⟩] ∧ ∀ y, v = some y → x = y := by
  obtain ⟨i, r, h1, h2, h3, -, -, -, h7⟩ := call0_poll (fun _ => 0) rfl g o env v h
  refine ⟨r.value, ?_, h7⟩
  rw [h3, copiesN_byRef hg i env r h1 (by rw [h2]; exact hl), hg]
  rfl

example : ∃ o, again.vars[1]? = some o ∧ ∃ x, copies0 { Glue.retained with resultByRef := true } o again.env = [⟨.out, false, x⟩] ∧ ∀ y, some (Val.data 12) = some y → x = y :=
  ⟨_, rfl, C91_by_reference { Glue.retained with resultByRef := true } rfl _ again.env (some (.data 12)) rfl rfl⟩

/-- **C91**: without the deduction guide, in any state and whatever the outcome, a call copies the results calculated, found in caches, and constants at most six times each. -/
theorem C91_at_most (w : Val D → Nat) (hw : Additive w) (g : Glue) (hg : g.resultByRef = false) (o : Obj D W E S) (env : Env D W S) : copied w (copies0 g o env) ≤ 6 * results w (copies0 g o env) :=
  copies0_le w hw hg o env

/-- `y` of `nested`, called once before the world was changed. -/
def changed : State Int Int Nat Nat := after .retained 5 (nested ++ [.call 1, .poke (· + 2)])

example : ∃ o, changed.vars[1]? = some o ∧ copied size (copies0 .retained o changed.env) = 33 ∧ results size (copies0 .retained o changed.env) = 7 ∧ 33 ≤ 6 * 7 :=
  ⟨_, rfl, by decide +kernel, by decide +kernel, by decide⟩

/-- **C91**: without the deduction guide, the first call, if it returns, copies every result five times, except constants, copied four times, and the one it returns, copied twice. -/
theorem C91_first (w : Val D → Nat) (hw : Additive w) (g : Glue) (hg : g.resultByRef = false) (o : Obj D W E S) (ho : unset o) (env : Env D W S) (v : Option (Val D))
    (h : (call0 g o env).1 = .ok v) : copied w (copies0 g o env) + constants w o + 3 * outWeight w v = 5 * results w (copies0 g o env) := by
  obtain ⟨i, r, h1, h2, h3, h4, h5, -⟩ := call0_poll w hw.rvoid g o env v h
  have c1 := copiesN_first w hw hg i env r h1 (by rw [unset, h5]; exact ho)
  have hh : constants w i = constants w o := h5 _ _
  have e1 : copied w [⟨.out, !g.resultByRef, r.value⟩] = 0 := by rw [hg]; rfl
  have e2 : results w [⟨.out, !g.resultByRef, r.value⟩] = 0 := by simp [results]
  rw [h3, copied_append, results_append, e1, e2, ← h4]
  omega

example : ∃ o, (after .retained 5 nested).vars[1]? = some o ∧ unset o ∧ constants size o = 3 ∧ results size (copies0 .retained o ⟨5, []⟩) = 7 ∧ copied size (copies0 .retained o ⟨5, []⟩) + 3 + 3 * 1 = 5 * 7 := by
  refine ⟨_, rfl, ?_⟩
  have hu : unset (detailLazy (Fun.regularized sum) [(detailLazy (Fun.regularized halfArg) [detailLazy (Fun.wrapDep rd) [Obj.lazyValue (Val.data CxxData.zero) true]]).unwrapped.unregularized,
      Obj.lazyValue (Val.data 10) false, detailLazy (Fun.wrapDep half) [Obj.lazyValue (Val.data CxxData.zero) true]]).unwrapped.unregularized := by
    simp [unset, Obj.total, detailLazy, Cache.empty, Fun.ret, sum, halfArg, rd, half, Cache.engaged]
  refine ⟨hu, ?_, by decide +kernel, ?_⟩
  · simp [constants, Obj.total, detailLazy, size]
  · have h := C91_first size size_additive .retained rfl _ hu ⟨5, []⟩ (some (.data 14)) rfl
    rw [show results size _ = 7 from by decide +kernel] at h
    simpa [constants, Obj.total, detailLazy, outWeight, size] using h

/-- **C91**: without the deduction guide, every call that returns copies, at least once, a result of every constant and of every function of the object that has one, also if no function is invoked. -/
theorem C91_results (g : Glue) (hg : g.resultByRef = false) (o : Obj D W E S) (env : Env D W S) (v : Option (Val D)) (h : (call0 g o env).1 = .ok v) :
    ((copies0 g o env).filter fun c => decide (c.place = .result)).length = nodes o ∧ ∀ c ∈ copies0 g o env, c.place = .result → c.move = false := by
  obtain ⟨i, r, h1, h2, h3, h4, h5, -⟩ := call0_poll (fun _ => 0) rfl g o env v h
  have c1 := copiesN_nodes hg i env r h1
  have hh : nodes i = nodes o := h5 _ _
  refine ⟨?_, ?_⟩
  · rw [h3]
    simpa [count, hh] using c1
  · rw [h3]
    exact Copies.append (copiesN_copies g i env) (.other (by simp))

example : ((copies0 .retained againO again.env).filter fun c => decide (c.place = .result)).length = 4 :=
  (C91_results .retained rfl againO again.env (some (.data 12)) rfl).1.trans (by simp [againO, nodes, Obj.total])

/-- **C91**: without the deduction guide but with caches, calling `lazy(f, v...)` again copies all the constants twice, though neither they nor the result are needed to know that nothing changed. -/
theorem C91_constants (w : Val D → Nat) (hw : w .rvoid = 0) (g : Glue) (hg : g.resultByRef = false) (hk : g.keepsCache) (f : UFn D W E S) (vs : List (Val D))
    (hlone : ∀ v, vs = [v] → ∀ xs, v ≠ .tup xs) (w0 : W) (x : Val D) (hx : (f.run f.st vs w0).1 = .ok x) :
    ∃ o env, after g w0 [.mk f (vs.map .value), .call 0] = ⟨[o], env⟩ ∧ call0 g o env = (.ok (if f.ret = .val then some x else none), o, env) ∧
      copied w (copies0 g o env) = 2 * (vs.map w).sum + outWeight w (if f.ret = .val then some x else none) := by
  obtain ⟨f', cache', env', h1, h2, h3, h4, -⟩ := call0_const_first g hk f (Cache.empty f.ret) vs ⟨w0, []⟩ x (Cache.empty_fits _) (Cache.empty_val? _) hx hlone (.inl hg)
  have hret : f'.ret = f.ret := by rw [h2]
  have h5 := call0_const_cached g f' cache' vs env' _ (hret ▸ h3) h4 (.inl hg)
  have hreg : (if f'.ret = .val then some (f.ret.regularize x) else none) = (if f.ret = .val then some x else none) := by
    rw [hret]
    rcases hr : f.ret <;> simp [RetTy.regularize]
  rw [hreg] at h5
  refine ⟨constNode f' cache' vs, env', ?_, h5, ?_⟩
  · have hmk := mk_const g (State.init w0) f vs
    simp only [after, run, hmk]
    simp only [State.init, List.nil_append, step, List.getElem?_cons_zero]
    rw [h1]
    rfl
  · have hs := (C91_settled w hw g hg (constNode f' cache' vs) env' _ (by rw [h5]) (by rw [h5])).1
    have hh : held w (constNode f' cache' vs) = outWeight w (if f.ret = .val then some x else none) + (vs.map w).sum := by
      simp only [constNode, held, Obj.total, List.map_map, Function.comp_def]
      congr 1
      rw [cacheWeight, Cache.deref_of_val? _ h4]
      rcases hr : f.ret <;> simp [RetTy.regularize, outWeight, hw]
    omega

/-- So there is no bound: adding n numbers of 4 bytes each, once done, copies 8n + 4 bytes to return four. -/
example (n : Nat) : ∃ o env, after .retained 0 [.mk sum ((List.replicate n (.data 1)).map .value), .call 0] = ⟨[o], env⟩ ∧
    copied (fun v => 4 * size v) (copies0 .retained o env) = 2 * (n * 4) + 4 := by
  obtain ⟨o, env, h1, -, h3⟩ := C91_constants (fun v => 4 * size v) (by simp [size]) .retained rfl ⟨rfl, rfl, rfl⟩ sum (List.replicate n (.data 1))
    (fun v h xs => by
      have : v ∈ List.replicate n (.data 1) := by rw [h]; simp
      rw [List.eq_of_mem_replicate this]
      simp) 0 _ rfl
  refine ⟨o, env, h1, ?_⟩
  rw [h3]
  simp [sum, outWeight, size]

/-- **C91**: without the deduction guide, `is_changed` is given copies of the results of the dependencies up to the first that has changed, and of none if the function has not been calculated yet; beside those that the
dependencies have themselves made. -/
theorem C91_asked (g : Glue) (hg : g.resultByRef = false) (f : Fun D W E S) (cache : Cache D) (deps deps' : List (Obj D W E S)) (env env' : Env D W S) (rs : List (LazyRes D))
    (h : evalDeps g deps env = (.ok rs, deps', env')) :
    (copies0 g (.unregularized (.unwrapped (.core f cache deps))) env).filter (fun c => decide (c.place = .flag)) = (copiesDeps g deps env).filter (fun c => decide (c.place = .flag)) ++
      if cache.engaged then (rs.takeWhile (fun r => !r.isChanged) ++ (rs.dropWhile fun r => !r.isChanged).take 1).map fun r => ⟨.flag, false, r.value⟩ else [] := by
  have ht := tail_asked hg f cache rs env'
  simp only [asked] at ht
  simp only [copies0, copiesN, h, List.filter_append, ht]
  refine (congrArg _ ?_).trans (List.append_nil _)
  split
  · split <;> simp
  · rfl

/-- `y` of `nested` asks only `x`, which has changed; `x` asks only `rd`, which has too, and `rd` and `half` ask their zeros. -/
example : (changed.vars[1]?.map fun o => ((copies0 .retained o changed.env).filter fun c => decide (c.place = .flag)).map fun c => toInt c.v) = some [0, 7, 0, 3] := by
  decide +kernel

example : evalDeps (E := Nat) .retained [.lazyValue (.data 1) false, .lazyValue (.data 2) true, .lazyValue (.data 3) true] (⟨5, []⟩ : Env Int Int Nat) =
    (.ok [⟨.data 1, false, true⟩, ⟨.data 2, true, true⟩, ⟨.data 3, true, true⟩], [.lazyValue (.data 1) false, .lazyValue (.data 2) true, .lazyValue (.data 3) true], ⟨5, []⟩) ∧
    (copies0 .retained (.unregularized (.unwrapped (.core (.regularized sum) (.opt (some (.data 9))) [.lazyValue (.data 1) false, .lazyValue (.data 2) true, .lazyValue (.data 3) true]))) ⟨5, []⟩).filter
      (fun c => decide (c.place = .flag)) = [⟨.flag, false, .data 1⟩, ⟨.flag, false, .data 2⟩] :=
  ⟨rfl, C91_asked .retained rfl (.regularized sum) (.opt (some (.data 9))) [.lazyValue (.data 1) false, .lazyValue (.data 2) true, .lazyValue (.data 3) true] _ ⟨5, []⟩ _ _ rfl⟩

end Pigro.Res
