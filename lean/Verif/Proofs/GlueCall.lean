import Verif.Proofs.LazyGlue
/-!
# Lazy objects at memory level, with any way of passing parameters
-/
namespace Pigro.LM
open Cxx
variable {D W E S : Type}

theorem placed_alive (base : MV D W E S → LB) : ∀ (vs : List (Val D)) (m : LMem D W E S),
    let p := placeAll (vs.map fun v => (base (.val v), (.val v : MV D W E S))) m
    ∀ e ∈ constRefs p.1, p.2.alive e.addr = true
  | [], m => by simp [placeAll, constRefs]
  | v :: vs, m => by
    have h := placed_alive base vs (m.alloc (.val v))
    obtain ⟨g, -⟩ := placeAll_spec (vs.map fun v => (base (.val v), (.val v : MV D W E S))) (m.alloc (.val v))
    simp only [List.map_cons, placeAll, constRefs]
    intro e he
    rcases List.mem_cons.1 he with rfl | he
    · simp only
      rw [g.aliveOld _ (by rw [alloc_next]; omega), alloc_alive]
    · exact h e he

/-- The closure of `detail::lazy` and what its parameters and its cache are afterwards, before any of this is thrown away. -/
def coreRaw [CxxData D] (g : Glue) (f : Fun D W E S) (cache : Cache D) (ds : List (Obj D W E S)) (env : Env D W S) :
    Out E (LazyRes D) × Fun D W E S × Cache D × List (Obj D W E S) × Env D W S :=
  match evalDeps g ds env with
  | (.ok rs, ds', env1) =>
    match coreTail g f cache rs env1 with
    | (o, f', cache', env2) => (o, f', cache', ds', env2)
  | (o, ds', env1) => (o.map (fun _ => ⟨.rvoid, false, false⟩), f, cache, ds', env1)

theorem evalN_core_raw [CxxData D] (g : Glue) (f : Fun D W E S) (cache : Cache D) (ds : List (Obj D W E S)) (env : Env D W S) :
    evalN g (.core f cache ds) env = ((coreRaw g f cache ds env).1, .core (keep g.coreParamsByValue f (coreRaw g f cache ds env).2.1)
      (keep g.bindFrontCopies cache (coreRaw g f cache ds env).2.2.1) (keep g.coreParamsByValue ds (coreRaw g f cache ds env).2.2.2.1),
      (coreRaw g f cache ds env).2.2.2.2) := by
  rw [evalN, coreRaw]
  rcases evalDeps g ds env with ⟨_ | _ | _ | _, ds', env1⟩ <;> simp only [keep_self]

/-- A result of the closure at `a`, once the memory is `M`, everything made since `lo'` that does not exist in `m` not existing: the closure itself
exists no more if it was a copy. -/
def CoreRes (g : Glue) (a lo lo' : Nat) (m : LMem D W E S) (r : LRes D) (q : LazyRes D) : Prop :=
  ∀ M : LMem D W E S, M.next = m.next → M.get a = m.get a → M.alive a = (!g.bindFrontCopies) →
    (∀ b, lo' ≤ b → m.alive b = false → M.alive b = false) → ResG g.resultByRef lo M r q

/-- The body of the closure, given that the dependencies are evaluated accordingly. -/
theorem coreBodyG_spec [CxxData D] (Θ : Empties D W E S) (hΘ : Stateless Θ) (moved : MV D W E S → MV D W E S) (g : Glue)
    (f : Fun D W E S) (cache : Cache D) (ds : List (Obj D W E S))
    (evalD : List (Expr LB) → LMem D W E S → Out E (List (LRes D)) × LMem D W E S) (callee np fp : Expr LB) (es : List (Expr LB))
    (m : LMem D W E S) (hclt : callee.addr < m.next) (lo : Nat) (hlo : lo ≤ callee.addr)
    (hc : m.get callee.addr = .cache cache) (hf : m.get fp.addr = .func f) (hflt : fp.addr < m.next) (hfc : fp.addr ≠ callee.addr)
    (hcla : m.alive callee.addr = true) (hfla : m.alive fp.addr = true)
    (hes : ∀ e ∈ es, e.addr < m.next ∧ e.addr ≠ callee.addr ∧ e.addr ≠ fp.addr)
    (hone : ∀ u, f = .wrapDep u → ∀ rs, (evalDeps g ds m.world).1 = .ok rs → (tupleCTAD Val.asTuple (rs.map LazyRes.value)).length = 1)
    (hD1 : OutRel (Rel2 (ResG g.resultByRef m.next (evalD es m).2)) (evalD es m).1 (evalDeps g ds m.world).1)
    (hD2 : (evalD es m).2.world = (evalDeps g ds m.world).2.2)
    (hD3 : (es.map fun e => (evalD es m).2.get e.addr) = (evalDeps g ds m.world).2.1.map .obj)
    (hD4 : Keeps (fun a => ∃ e ∈ es, e.addr = a) m (evalD es m).2) :
    OutRel (CoreRes g callee.addr lo m.next (coreBodyG (lang Θ moved) g (funSh f) evalD callee (np :: fp :: es) m).2)
        (coreBodyG (lang Θ moved) g (funSh f) evalD callee (np :: fp :: es) m).1 (coreRaw g f cache ds m.world).1 ∧
      (coreBodyG (lang Θ moved) g (funSh f) evalD callee (np :: fp :: es) m).2.world = (coreRaw g f cache ds m.world).2.2.2.2 ∧
      (coreBodyG (lang Θ moved) g (funSh f) evalD callee (np :: fp :: es) m).2.get callee.addr = .cache (coreRaw g f cache ds m.world).2.2.1 ∧
      (coreBodyG (lang Θ moved) g (funSh f) evalD callee (np :: fp :: es) m).2.get fp.addr = .func (coreRaw g f cache ds m.world).2.1 ∧
      (es.map fun e => (coreBodyG (lang Θ moved) g (funSh f) evalD callee (np :: fp :: es) m).2.get e.addr) =
        (coreRaw g f cache ds m.world).2.2.2.1.map .obj ∧
      Keeps (fun a => a = callee.addr ∨ a = fp.addr ∨ ∃ e ∈ es, e.addr = a) m
        (coreBodyG (lang Θ moved) g (funSh f) evalD callee (np :: fp :: es) m).2 := by
  rcases hq : evalDeps g ds m.world with ⟨oq, ds', env1⟩
  rcases hr : evalD es m with ⟨or, m1⟩
  rw [hq] at hone hD1 hD2 hD3
  rw [hr] at hD1 hD2 hD3 hD4
  simp only at hone hD1 hD2 hD3 hD4
  have hk1 : Keeps (fun a => a = callee.addr ∨ a = fp.addr ∨ ∃ e ∈ es, e.addr = a) m m1 := hD4.mono fun _ _ h => .inr (.inr h)
  have hn1 := hD4.next
  have hcl : m1.get callee.addr = .cache cache := by
    rw [hD4.frame _ hclt (by rintro ⟨e, he, h⟩; exact (hes e he).2.1 h), hc]
  have hfl : m1.get fp.addr = .func f := by
    rw [hD4.frame _ hflt (by rintro ⟨e, he, h⟩; exact (hes e he).2.2 h), hf]
  have hcl2 : m1.alive callee.addr = true := by rw [hD4.alive _ hclt, hcla]
  have hfl2 : m1.alive fp.addr = true := by rw [hD4.alive _ hflt, hfla]
  have hev : ∀ (x : LMem D W E S), (∀ a < m1.next, a ≠ callee.addr → a ≠ fp.addr → x.get a = m1.get a) →
      (es.map fun e => x.get e.addr) = ds'.map .obj := by
    intro x hx
    rw [← hD3]
    apply List.map_congr_left
    intro e he
    obtain ⟨h1, h2, h3⟩ := hes e he
    exact hx _ (by omega) h2 h3
  rcases oq with rs | e | _ | _ <;> rcases or with rs' | e' | _ | _ <;> simp only [OutRel] at hD1
  · -- the dependencies have values
    simp only [coreRaw, hq, coreBodyG, hr, look_eq hcl2 hcl, coreTail, any_eq, isChangedG hD1, readResultsG hD1, readValues, transform_eq]
    by_cases hch : (!cache.engaged || rs.any LazyRes.isChanged) = true
    · rw [if_pos hch, if_pos hch]
      by_cases hlive : (rs.all fun x => x.live) = true
      case neg =>
        rw [if_neg hlive, if_neg hlive]
        exact ⟨trivial, hD2, hcl, hfl, hD3, hk1⟩
      rw [if_pos hlive, if_pos hlive]
      simp only
      have hvs := placed_refs (D := D) (W := W) (E := E) (S := S) (lang Θ moved).base (tupleCTAD Val.asTuple (rs.map LazyRes.value)) m1
      have hva := placed_alive (D := D) (W := W) (E := E) (S := S) (lang Θ moved).base (tupleCTAD Val.asTuple (rs.map LazyRes.value)) m1
      have hpl := placeAll_spec (((tupleCTAD Val.asTuple (rs.map LazyRes.value)).map fun v => ((lang Θ moved).base (.val v), (.val v : MV D W E S)))) m1
      generalize hp : placeAll (((tupleCTAD Val.asTuple (rs.map LazyRes.value)).map fun v => ((lang Θ moved).base (.val v), (.val v : MV D W E S)))) m1 = p at hvs hva hpl ⊢
      simp only at hvs hva
      have hpn := hpl.1.next
      obtain ⟨f1, f2, f3, f4⟩ := funCodeG_spec Θ hΘ moved g f fp (constRefs p.1) (tupleCTAD Val.asTuple (rs.map LazyRes.value)) p.2
        (by rw [hpl.1.frame _ (by omega) (by simp), hfl]) (by rw [hpl.1.aliveOld _ (by omega), hfl2]) hvs.1 hva hvs.2 (fun u hu => hone u hu rs rfl)
      have hpw : p.2.world = env1 := by rw [hpl.1.world, hD2]
      rw [hpw] at f1 f2 f3
      rcases hcf : f.call g (tupleCTAD Val.asTuple (rs.map LazyRes.value)) env1 with ⟨o, f', env2⟩
      rcases hfc' : funCodeG (lang Θ moved) g (funSh f) fp (constRefs p.1) p.2 with ⟨o', m2⟩
      rw [hcf] at f1 f2 f3
      rw [hfc'] at f1 f2 f3 f4
      simp only at f1 f2 f3 f4
      subst f1
      have hk2 : Keeps (· = fp.addr) m1 m2 := ((Keeps.ofGrows hpl.1).mono fun _ _ h => h.elim).trans f4 fun _ _ h => h
      have hk2' : Keeps (fun a => a = callee.addr ∨ a = fp.addr ∨ ∃ e ∈ es, e.addr = a) m m2 := hk1.trans hk2 fun _ _ h => .inr (.inl h)
      have hn2 := hk2.next
      have hc2 : m2.get callee.addr = .cache cache := by rw [hk2.frame _ (by omega) (by omega), hcl]
      rcases o' with result | e | _ | _
      · simp only
        obtain ⟨c1, c2, c3⟩ := coreResultG (E := E) g callee.addr lo (cache.ne result) (cache.assign result)
          (({ m2 with world := { m2.world with log := m2.world.log ++ cmpEvents cache result } } : LMem D W E S).write callee.addr
            (.cache (cache.assign result))) (by simp [Mem.write])
          (by show m2.alive _ = true; rw [hk2.alive _ (by omega), hcl2]) (by show callee.addr < m2.next; omega) hlo
        generalize hcr : coreResult (E := E) g.resultByRef callee.addr (cache.ne result)
          (({ m2 with world := { m2.world with log := m2.world.log ++ cmpEvents cache result } } : LMem D W E S).write callee.addr
            (.cache (cache.assign result))) = cr at c1 c2 c3 ⊢
        obtain ⟨v, hv⟩ : ∃ v, (cache.assign result).deref = some v := by
          rcases cache with o | o <;> exact ⟨_, rfl⟩
        rw [hv] at c1
        simp only [hv]
        have hl : g.coreLive (cache.assign result) = g.coreLive cache := by cases cache <;> rfl
        rw [hl] at c1
        have hcell : ∀ a < m2.next, (cr.2.killRange m1.next p.2.next).get a =
            if a = callee.addr then .cache (cache.assign result) else m2.get a := by
          intro a ha
          show cr.2.get a = _
          rw [c3.frame a ha (by simp)]
          simp only [Mem.write]
        refine ⟨?_, ?_, ?_, ?_, ?_, ?_⟩
        · refine OutRel.imp ?_ c1
          intro r q h M h1 h2 h3 h4
          refine h M h1 ?_ h3 fun b hb hd => h4 b ?_ ?_
          · rw [h2, hcell _ (by omega), if_pos rfl]
            simp [Mem.write]
          · have hb : m2.next ≤ b := hb
            omega
          · show (cr.2.alive b && _) = false
            rw [hd]
            rfl
        · show cr.2.world = _
          rw [c2]
          simp only [Mem.write, f2]
        · rw [hcell _ (by omega), if_pos rfl]
        · rw [hcell _ (by omega), if_neg hfc, f3]
        · refine hev _ fun a h1 h2 h3 => ?_
          rw [hcell _ (by omega), if_neg h2, hk2.frame _ h1 h3]
        · refine Keeps.killRange ?_ _ _ (by omega)
          exact ((hk2'.setWorld _).write _ _ (.inr (.inl (.inl rfl)))).trans c3 fun _ _ h => h.elim
      · exact ⟨rfl, f2, hc2, f3, hev _ fun a h1 _ h3 => hk2.frame _ h1 h3, hk2'.killRange _ _ (by omega)⟩
      · exact ⟨trivial, f2, hc2, f3, hev _ fun a h1 _ h3 => hk2.frame _ h1 h3, hk2'.killRange _ _ (by omega)⟩
      · exact ⟨trivial, f2, hc2, f3, hev _ fun a h1 _ h3 => hk2.frame _ h1 h3, hk2'.killRange _ _ (by omega)⟩
    · rw [if_neg hch, if_neg hch]
      obtain ⟨c1, c2, c3⟩ := coreResultG (E := E) g callee.addr lo false cache m1 hcl hcl2 (by omega) hlo
      have hk3 := hk1.trans c3 (fun _ _ h => h.elim)
      have h3 : (coreResult (E := E) g.resultByRef callee.addr false m1).2.get callee.addr = .cache cache := by rw [c3.frame _ (by omega) (by simp), hcl]
      have h4 : (coreResult (E := E) g.resultByRef callee.addr false m1).2.get fp.addr = .func f := by rw [c3.frame _ (by omega) (by simp), hfl]
      have c1 := OutRel.imp (Q := CoreRes g callee.addr lo m.next (coreResult (E := E) g.resultByRef callee.addr false m1).2)
        (fun r q h M h1 h2 h3' h4 => h M h1 (by rw [h2, h3, hcl]) h3' fun b hb hd => h4 b (by omega) hd) c1
      rcases hv : cache.deref with _ | v <;> rw [hv] at c1 <;> simp only
      · exact ⟨c1, by rw [c2, hD2], h3, h4, hev _ fun a h1 _ _ => c3.frame _ h1 (by simp), hk3⟩
      · exact ⟨c1, by rw [c2, hD2], h3, h4, hev _ fun a h1 _ _ => c3.frame _ h1 (by simp), hk3⟩
  · subst hD1
    simp only [coreRaw, hq, coreBodyG, hr, Out.map, OutRel]
    exact ⟨trivial, hD2, hcl, hfl, hD3, hk1⟩
  · simp only [coreRaw, hq, coreBodyG, hr, Out.map, OutRel]
    exact ⟨trivial, hD2, hcl, hfl, hD3, hk1⟩
  · simp only [coreRaw, hq, coreBodyG, hr, Out.map, OutRel]
    exact ⟨trivial, hD2, hcl, hfl, hD3, hk1⟩

/-! ### Members of empty type -/

theorem coreTail_fun [CxxData D] (g : Glue) (f : Fun D W E S) (cache : Cache D) (rs : List (LazyRes D)) (env : Env D W S) :
    (coreTail g f cache rs env).2.1 = f ∨ ∃ vs, (coreTail g f cache rs env).2.1 = (f.call g vs env).2.1 := by
  rw [coreTail]
  split
  · rcases readValues rs with _ | vs
    · exact .inl rfl
    · simp only
      refine .inr ⟨vs, ?_⟩
      rcases f.call g vs env with ⟨r | e | _ | _, f', env'⟩ <;> simp only
      rcases (cache.assign r).deref with _ | v <;> rfl
  · rcases cache.deref with _ | v <;> exact .inl rfl

theorem coreRaw_fun [CxxData D] (g : Glue) (f : Fun D W E S) (cache : Cache D) (ds : List (Obj D W E S)) (env : Env D W S) :
    (coreRaw g f cache ds env).2.1 = f ∨ ∃ vs env', (coreRaw g f cache ds env).2.1 = (f.call g vs env').2.1 := by
  rw [coreRaw]
  rcases evalDeps g ds env with ⟨rs | e | _ | _, ds', env1⟩ <;> simp only
  · rcases coreTail_fun g f cache rs env1 with h | ⟨vs, h⟩
    · exact .inl h
    · exact .inr ⟨vs, env1, h⟩
  · exact .inl trivial
  · exact .inl trivial
  · exact .inl trivial

theorem coreRaw_deps [CxxData D] (g : Glue) (f : Fun D W E S) (cache : Cache D) (ds : List (Obj D W E S)) (env : Env D W S) :
    (coreRaw g f cache ds env).2.2.2.1 = (evalDeps g ds env).2.1 := by
  rw [coreRaw]
  rcases evalDeps g ds env with ⟨rs | e | _ | _, ds', env1⟩ <;> rfl

theorem call_empty {Θ : Empties D W E S} (hΘ : Stateless Θ) {moved : MV D W E S → MV D W E S} (g : Glue) (f : Fun D W E S)
    (h : (lang Θ moved).isEmpty ((lang Θ moved).base (.func f)) = true) (vs : List (Val D)) (env : Env D W S) : (f.call g vs env).2.1 = f := by
  have key : ∀ u : UFn D W E S, (lang Θ moved).isEmpty ((lang Θ moved).base (.func f)) = true → (f = .regularized u ∨ f = .wrapDep u) →
      (lang Θ moved).isEmpty ((lang Θ moved).base (.user u)) = true := by
    rintro u h (rfl | rfl) <;> rcases hu : Θ.fn u with _ | k <;> simp only [lang, Empties.base, hu] at h ⊢ <;>
      first
        | rfl
        | (simp [LB.isEmpty] at h; done)
  rcases f with u | u
  · rw [call_regularizedG]
    simp only [hΘ.invoke (key u h (.inl rfl)), keep_self]
  · rw [call_wrapDepG]
    simp only [hΘ.invoke (key u h (.inr rfl)), keep_self]

theorem coreRaw_fun_empty [CxxData D] {Θ : Empties D W E S} (hΘ : Stateless Θ) {moved : MV D W E S → MV D W E S} (g : Glue) (f : Fun D W E S)
    (cache : Cache D) (ds : List (Obj D W E S)) (env : Env D W S) (h : (lang Θ moved).isEmpty ((lang Θ moved).base (.func f)) = true) :
    (coreRaw g f cache ds env).2.1 = f := by
  rcases coreRaw_fun g f cache ds env with h1 | ⟨vs, env', h1⟩
  · exact h1
  · rw [h1, call_empty hΘ g f h]

theorem evalDeps_const [CxxData D] (g : Glue) : ∀ (ds : List (Obj D W E S)) (env : Env D W S) (i : Nat) (v : Val D) (c : Bool),
    ds[i]? = some (.lazyValue v c) → (evalDeps g ds env).2.1[i]? = some (.lazyValue v c)
  | [], env, i, v, c, h => by simp at h
  | d :: ds, env, i, v, c, h => by
    have key : ∃ d' ds', (evalDeps g (d :: ds) env).2.1 = d' :: ds' ∧ d' = (evalN g d env).2.1 ∧ (ds' = ds ∨ ∃ env', ds' = (evalDeps g ds env').2.1) := by
      rw [evalDeps]
      rcases evalN g d env with ⟨r | e | _ | _, d', env1⟩ <;> simp only
      · exact ⟨_, _, rfl, rfl, .inr ⟨env1, rfl⟩⟩
      · exact ⟨_, _, rfl, rfl, .inl rfl⟩
      · exact ⟨_, _, rfl, rfl, .inl rfl⟩
      · exact ⟨_, _, rfl, rfl, .inl rfl⟩
    obtain ⟨d', ds', h1, h2, h3⟩ := key
    rw [h1]
    rcases i with _ | i
    · simp only [List.getElem?_cons_zero, Option.some.injEq] at h ⊢
      rw [h2, h]
      rfl
    · simp only [List.getElem?_cons_succ] at h ⊢
      rcases h3 with rfl | ⟨env', rfl⟩
      · exact h
      · exact evalDeps_const g ds env' i v c h

theorem obj_empty {Θ : Empties D W E S} {moved : MV D W E S → MV D W E S} {o : Obj D W E S}
    (h : (lang Θ moved).isEmpty ((lang Θ moved).base (.obj o)) = true) : ∃ v c, o = .lazyValue v c := by
  rcases o with ⟨v, c⟩ | _ | _ | _
  · exact ⟨v, c, rfl⟩
  all_goals simp [lang, Empties.base, LB.isEmpty] at h

/-! ### All objects -/

/-- What is proved of every object: called at memory level, it does what `evalN` says; afterwards it is the object that `evalN` says; and
all other objects that existed before are unchanged (`nullptr` excepted, which may be moved from). -/
def CallOkG [CxxData D] (Θ : Empties D W E S) (moved : MV D W E S → MV D W E S) (g : Glue) (o : Obj D W E S) : Prop :=
  ∀ (m : LMem D W E S) (callee np : Expr LB), callee.cat = .lv → callee.addr < m.next → m.get callee.addr = .obj o →
    m.alive callee.addr = true → np.addr < m.next → np.addr ≠ callee.addr →
    OutRel (ResG g.resultByRef m.next (callNG (lang Θ moved) g (sh o) callee [np] m).2) (callNG (lang Θ moved) g (sh o) callee [np] m).1
        (evalN g o m.world).1 ∧
      (callNG (lang Θ moved) g (sh o) callee [np] m).2.world = (evalN g o m.world).2.2 ∧
      (callNG (lang Θ moved) g (sh o) callee [np] m).2.get callee.addr = .obj (evalN g o m.world).2.1 ∧
      Keeps (fun a => a = np.addr ∨ a = callee.addr) m (callNG (lang Θ moved) g (sh o) callee [np] m).2

theorem write_self (m : LMem D W E S) (a : Nat) (x : MV D W E S) : (m.write a x).get a = x := by simp [Mem.write]

theorem callNG_value [CxxData D] (Θ : Empties D W E S) (moved : MV D W E S → MV D W E S) (g : Glue) (hst : ConstantsStored Θ g) (v : Val D) (c : Bool) :
    CallOkG Θ moved g (.lazyValue v c) := by
  intro m callee np hcat hlt hget hlive hnp hne
  obtain ⟨lg, lels, lhold⟩ := layout_spec Θ moved [.val v, .flag c] m
  have ln := lg.next
  obtain ⟨fe, ps, m', f1, ⟨al1, al2, al3⟩, hps, hpw, hpv, hw, hk, hn, hkept, hcall⟩ := backCallG (E := E) Θ moved g.bindFrontCopies g.valueParamByValue
    (.empty (.lam .value)) (tupleOf (layout (lang Θ moved) [.val v, .flag c] m).1 callee.addr) (layout (lang Θ moved) [.val v, .flag c] m).1
    callee.c callee.cat (tupleOf_constOk _ _ _) [np] m (layout (lang Θ moved) [.val v, .flag c] m).2 lg .unit [.val v, .flag c]
    (layout_inCells Θ moved _ _ _) (layout_apart' Θ moved _ _ _) rfl lhold
    (fun e he => by rw [List.mem_singleton] at he; rw [he]; exact hnp) (by simp [Apart]) 0 (by simp)
  simp only [List.drop_zero, List.map_cons, List.map_nil, List.cons_append, List.nil_append] at hpv
  obtain ⟨n', x, y, rfl⟩ : ∃ a b c, ps = [a, b, c] := by
    have := congrArg List.length hpv
    rcases ps with _ | ⟨a, _ | ⟨b, _ | ⟨c, _ | ⟨d, l⟩⟩⟩⟩ <;> simp at this
    exact ⟨a, b, c, rfl⟩
  simp only [List.map_cons, List.map_nil, List.cons.injEq, and_true] at hpv
  have hc := hcall (LRes D) (fun _ => endingIf g.valueParamByValue fun ps m => match ps with
    | [_, value, changed] =>
      match look m value.addr, look m changed.addr with
      | .val v, .flag b => (.ok (mkResult g.resultByRef value.addr v b), m)
      | _, _ => (.ub, m)
    | _ => (.illFormed, m))
  obtain ⟨-, x2, x3, -⟩ := hps x (by simp)
  obtain ⟨-, y2, y3, -⟩ := hps y (by simp)
  simp only [endingIf_eq, look_eq (al1 _ x2 x3) hpv.2.1, look_eq (al1 _ y2 y3) hpv.2.2] at hc
  have ke := (hkept (ended g.valueParamByValue m'.next m') (fun _ _ _ _ => by rw [ended_get])).2 [.val v, .flag c]
    (by simp [ended_get, hpv.2.1, hpv.2.2]) (fun _ _ _ => rfl)
  rw [keep_self] at ke
  have he : callNG (lang Θ moved) g (sh (.lazyValue v c : Obj D W E S)) callee [np] m = (.ok (mkResult g.resultByRef x.addr v c),
      ((ended g.valueParamByValue m'.next m').killRange (layout (lang Θ moved) [.val v, .flag c] m).2.next m'.next).write callee.addr
        (.obj (.lazyValue v c))) := by
    simp only [sh, callNG, look_eq hlive hget]
    exact callBoundG_eq (s := .unit) hc rfl ke rfl
  rw [he]
  have hkn := hk.next
  refine ⟨?_, (ended_world _ _ _).trans hw, write_self _ _ _, ?_⟩
  · rcases hb : g.resultByRef with _ | _
    · simp only [evalN, OutRel, hb]
      exact ⟨rfl, rfl, by simp [mkResult, LRes.read], by simp [mkResult]⟩
    · simp only [evalN, OutRel, hb, Bool.true_and]
      refine ⟨rfl, rfl, ?_, ?_⟩
      · have hval : (ended g.valueParamByValue m'.next m').alive x.addr = true := by
          rw [ended_alive, al1 x.addr x2 x3, decide_eq_false (p := m'.next ≤ x.addr) (by omega)]
          simp
        simp only [LRes.read, mkResult, if_true, Mem.write, Mem.killRange, hval, Bool.true_and, ended_get]
        rw [if_neg (show x.addr ≠ callee.addr by omega), hpv.2.1, decide_eq_true (p := x.addr < m'.next) x3, Bool.and_true]
        rcases hbv : g.valueParamByValue with _ | _
        · have hl : (layout (lang Θ moved) [.val v, .flag c] m).1[0]? = some (.stored ⟨(lang Θ moved).base (.val v), false, false, .none⟩ m.next) := by
            rw [layout, if_neg (by simp [lang, Empties.base, hst hb hbv v, LB.isEmpty])]
            rfl
          obtain ⟨q, q1, q2⟩ := al3 hbv 0 _ _ hl
          simp only [List.length_cons, List.length_nil, List.drop_succ_cons, List.drop_zero, List.getElem?_cons_zero, Option.some.injEq] at q1
          subst q1
          have ln1 : m.next < (layout (lang Θ moved) [.val v, .flag c] m).2.next := by
            rcases lels _ (List.mem_of_getElem? hl) with ⟨b, h⟩ | ⟨b, a, h, h2, h3⟩
            · simp at h
            · simp only [Elem.stored.injEq] at h
              omega
          rw [decide_eq_false (by omega)]
        · rw [decide_eq_true (al2 hbv x (by simp))]
      · intro a ha
        simp only [mkResult, if_true, Sum.inl.injEq] at ha
        subst ha
        refine ⟨x2, ?_⟩
        show x.addr < (ended g.valueParamByValue m'.next m').next
        rw [ended_next]
        exact x3
  · exact Keeps.write (Keeps.killRange ((hk.mono fun _ _ h => .inl (moves_np h)).ended _ _ hkn) _ _ ln) _ _ (.inr (.inl (.inr rfl)))

theorem callNG_unwrapped [CxxData D] (Θ : Empties D W E S) (moved : MV D W E S → MV D W E S) (g : Glue) (inner : Obj D W E S)
    (ih : CallOkG Θ moved g inner) : CallOkG Θ moved g (.unwrapped inner) := by
  intro m callee np hcat hlt hget hlive hnp hne
  obtain ⟨lg, lels, lhold⟩ := layout_spec Θ moved [.obj inner] m
  have ln := lg.next
  obtain ⟨fe, ps, m', f1, ⟨al1, -, -⟩, hps, hpw, hpv, hw, hk, hn0, hkept, hcall⟩ := backCallG (E := E) Θ moved g.bindFrontCopies g.unwrapParamByValue
    (.empty (.lam .unwrap)) (tupleOf (layout (lang Θ moved) [.obj inner] m).1 callee.addr) (layout (lang Θ moved) [.obj inner] m).1
    callee.c callee.cat (tupleOf_constOk _ _ _) [callee, np] m (layout (lang Θ moved) [.obj inner] m).2 lg .unit [.obj inner]
    (layout_inCells Θ moved _ _ _) (layout_apart' Θ moved _ _ _) rfl lhold
    (fun e he => by
        simp only [List.mem_cons, List.not_mem_nil, or_false] at he
        rcases he with rfl | rfl
        · exact hlt
        · exact hnp) (by
        simp only [Apart, List.pairwise_cons, List.mem_singleton, forall_eq, List.not_mem_nil, false_imp_iff, implies_true, List.Pairwise.nil, and_true]
        exact fun _ h => hne h.symm) 1 (by simp)
  simp only [List.drop_succ_cons, List.drop_zero, List.map_cons, List.map_nil, List.cons_append, List.nil_append] at hpv
  obtain ⟨a, d, rfl⟩ : ∃ a d, ps = [a, d] := by
    exact length_two (by simpa using congrArg List.length hpv)
  simp only [List.map_cons, List.map_nil, List.cons.injEq, and_true] at hpv
  obtain ⟨d1, d2, d3, d4⟩ := hps d (by simp)
  obtain ⟨h1, h2, h3, h4⟩ := ih (m'.alloc .unit) d ⟨.nullptr, false, false, .xv, m'.next⟩ d1 (by rw [alloc_next]; omega)
    (by simp only [Mem.alloc]; rw [if_neg (by omega)]; exact hpv.2)
    (by simp [Mem.alloc, al1 _ d2 d3]) (by simp only; rw [alloc_next]; omega) (by simp only; omega)
  have hwa : (m'.alloc (MV.unit : MV D W E S)).world = m.world := hw
  rw [hwa] at h1 h2 h3
  have hc := hcall (LRes D) (fun _ => endingIf g.unwrapParamByValue fun ps m => match ps with
    | [_, f] => withNullptr (callNG (lang Θ moved) g (sh inner)) f m
    | _ => (.illFormed, m))
  simp only [endingIf_eq, withNullptr] at hc
  generalize hr : callNG (lang Θ moved) g (sh inner) d [⟨.nullptr, false, false, .xv, m'.next⟩] (m'.alloc .unit) = r at h1 h2 h3 h4 hc
  simp only at h4
  have hk' : Keeps (fun a => a = np.addr ∨ a = callee.addr) m m' := hk.mono fun x _ h => by
    obtain ⟨e, he, e1, e2, e3⟩ := h
    simp only [List.mem_cons, List.not_mem_nil, or_false] at he
    rcases he with rfl | rfl
    · rw [hcat] at e2; simp at e2
    · exact .inl e1.symm
  have hn := hk'.next
  have hk2 : Keeps (fun a => a = np.addr ∨ a = callee.addr) m (ended g.unwrapParamByValue m'.next (r.2.kill m'.next)) :=
    (((hk'.alloc _).trans h4 fun x hx h => by omega).kill _ (by omega)).ended _ _ hn
  have ke := (hkept (ended g.unwrapParamByValue m'.next (r.2.kill m'.next)) (fun x hx h1 h2 => by
    rw [ended_get]
    show r.2.get x = _
    have := h2 d (by simp)
    rw [h4.frame _ (by rw [alloc_next]; omega) (by omega)]
    simp only [Mem.alloc]
    rw [if_neg (by omega)])).2 [.obj (evalN g inner m.world).2.1] (by
      simp only [List.length_cons, List.length_nil, List.drop_succ_cons, List.drop_zero, List.map_cons, List.map_nil, List.cons.injEq, and_true, ended_get]
      exact h3) (by
      intro i b hi
      obtain ⟨x, h1, h2⟩ := layout_empty Θ moved _ _ i b hi
      rcases i with _ | i
      · simp only [List.getElem?_cons_zero, Option.some.injEq] at h1
        subst h1
        obtain ⟨v, c, rfl⟩ := obj_empty h2
        rfl
      · simp at h1)
  have he : callNG (lang Θ moved) g (sh (.unwrapped inner)) callee [np] m = (r.1,
      ((ended g.unwrapParamByValue m'.next (r.2.kill m'.next)).killRange (layout (lang Θ moved) [.obj inner] m).2.next m'.next).write callee.addr
        (.obj (.unwrapped (keep g.unwrapParamByValue inner (evalN g inner m.world).2.1)))) := by
    simp only [sh, callNG, look_eq hlive hget]
    refine callBoundG_eq (s := .unit) hc rfl ke ?_
    rw [keep_map g.unwrapParamByValue (fun o : Obj D W E S => [MV.obj o])]
    rfl
  rw [he]
  rcases hq : evalN g inner m.world with ⟨o, inner', env'⟩
  rw [hq] at h1 h2
  simp only at h1 h2
  simp only [evalN, hq]
  refine ⟨?_, (ended_world _ _ _).trans h2, write_self _ _ _, ?_⟩
  · rw [show r.1 = Out.map id r.1 by cases r.1 <;> rfl]
    refine OutRel.map ?_ h1
    intro a b h
    rw [alloc_next] at h
    exact ((((h.kill _ (by omega)).ended _ _ (by omega)).killRange _ _ (by omega)).write _ _ (by omega)).low (by omega)
  · exact Keeps.write (hk2.killRange _ _ (by omega)) _ _ (.inr (.inl (.inr rfl)))

/-- Calling the facade made by `unregularized_void` around an object: what the object is called with, and what becomes of the result. -/
theorem unregularizedCodeG_spec {R : Type} (Θ : Empties D W E S) (moved : MV D W E S → MV D W E S) (g : Glue) (inner inner' : Obj D W E S)
    (code : LCode D W E S R) (hconst : ∀ v c, inner = .lazyValue v c → inner' = inner)
    (callee : Expr LB) (args : List (Expr LB)) (m : LMem D W E S) (hget : m.get callee.addr = .obj (.unregularized inner))
    (hlive : m.alive callee.addr = true)
    (hargs : ∀ e ∈ args, e.addr < m.next ∧ e.addr ≠ callee.addr) (hx : Apart args) (env' : Env D W S)
    (ih : ∀ (m' : LMem D W E S) (p : Expr LB) (ps : List (Expr LB)), m'.world = m.world → p.cat = .lv → p.addr < m'.next → m'.get p.addr = .obj inner →
      m'.alive p.addr = true → ps.length = args.length → (∀ q ∈ ps, q.cat = .lv ∧ q.addr < m'.next ∧ q.addr ≠ p.addr) →
      (code p ps m').2.world = env' ∧ (code p ps m').2.get p.addr = .obj inner' ∧
        Keeps (fun a => a = p.addr ∨ ∃ q ∈ ps, q.addr = a) m' (code p ps m').2) :
    (∃ (m' : LMem D W E S) (p : Expr LB) (ps : List (Expr LB)) (lo : Nat) (x : MV D W E S), m'.world = m.world ∧ p.cat = .lv ∧ p.addr < m'.next ∧
      m'.get p.addr = .obj inner ∧ m'.alive p.addr = true ∧ ps.length = args.length ∧ (∀ q ∈ ps, q.cat = .lv ∧ q.addr < m'.next ∧ q.addr ≠ p.addr) ∧ m.next ≤ m'.next ∧
      unregularizedCodeG (lang Θ moved) g code callee args m =
        ((code p ps m').1, ((ended g.facadeParamByValue m'.next (code p ps m').2).killRange lo m'.next).write callee.addr x)) ∧
      (unregularizedCodeG (lang Θ moved) g code callee args m).2.world = env' ∧
      (unregularizedCodeG (lang Θ moved) g code callee args m).2.get callee.addr = .obj (.unregularized (keep g.facadeParamByValue inner inner')) ∧
      Keeps (fun a => (∃ e ∈ args, e.addr = a) ∨ a = callee.addr) m (unregularizedCodeG (lang Θ moved) g code callee args m).2 := by
  obtain ⟨p, ps, m', ⟨p1, p2, p3, p4, p5⟩, hps, hpv, hw, hk, ln, hkept, hcall⟩ := frontOneG (E := E) Θ moved g.bindFrontCopies g.facadeParamByValue
    .unregularize (.obj inner) callee.c callee.cat callee.addr args m (fun e he => (hargs e he).1) hx
  have hlen : ps.length = args.length := by simpa using congrArg List.length hpv
  have hps' : ∀ q ∈ ps, q.cat = .lv ∧ q.addr < m'.next ∧ q.addr ≠ p.addr := fun q hq => ⟨(hps q hq).1, (hps q hq).2.1, (hps q hq).2.2.1⟩
  obtain ⟨h2, h3, h4⟩ := ih m' p ps hw p1 p3 p4 p5 hlen hps'
  have hc := hcall R (endingIf g.facadeParamByValue fun ps m => match ps with
    | f :: args => code f args m
    | [] => (.illFormed, m))
  simp only [endingIf_eq] at hc
  have hk2 : Keeps (fun a => (∃ e ∈ args, e.addr = a) ∨ a = callee.addr) m (code p ps m').2 :=
    (hk.mono fun a _ h => by
      obtain ⟨e, he, h, -⟩ := h
      exact .inl ⟨e, he, h⟩).trans h4 fun a ha h => by
      rcases h with rfl | ⟨q, hq, rfl⟩
      · omega
      · rcases (hps q hq).2.2.2.1 with h | h
        · omega
        · exact .inl h
  have ke := hkept (ended g.facadeParamByValue m'.next (code p ps m').2) (fun a ha h1 h2 => by
    rw [ended_get]
    refine h4.frame a ha ?_
    rintro (h | ⟨q, hq, h⟩)
    · exact h1 h
    · exact h2 q hq h) _ ((congrFun (ended_get _ _ _) _).trans h3) (fun h => by
      obtain ⟨v, c, hi⟩ := obj_empty h
      rw [hconst v c hi])
  have he : unregularizedCodeG (lang Θ moved) g code callee args m = ((code p ps m').1,
      ((ended g.facadeParamByValue m'.next (code p ps m').2).killRange (layout (lang Θ moved) [.obj inner] m).2.next m'.next).write callee.addr
        (.obj (.unregularized (keep g.facadeParamByValue inner inner')))) := by
    simp only [unregularizedCodeG, look_eq hlive hget]
    refine callBoundG_eq (s := .unit) hc rfl ke ?_
    rw [keep_map]
    rfl
  refine ⟨⟨m', p, ps, _, _, hw, p1, p3, p4, p5, hlen, hps', hk.next, he⟩, ?_⟩
  rw [he]
  exact ⟨(ended_world _ _ _).trans h2, write_self _ _ _,
    Keeps.write ((hk2.ended _ _ hk.next).killRange _ _ (by omega)) _ _ (.inr (.inl (.inr rfl)))⟩

theorem callNG_unregularized [CxxData D] (Θ : Empties D W E S) (moved : MV D W E S → MV D W E S) (g : Glue)
    (inner : Obj D W E S) (ih : CallOkG Θ moved g inner) : CallOkG Θ moved g (.unregularized inner) := by
  intro m callee np hcat hlt hget hlive hnp hne
  rcases hq : evalN g inner m.world with ⟨o, inner', env'⟩
  simp only [evalN, hq, sh, callNG]
  obtain ⟨⟨m', p, ps, lo, x, r1, r2, r3, r4, r4a, r5, r6, r7, r8⟩, h2, h3, h4⟩ := unregularizedCodeG_spec Θ moved g inner inner'
    (callNG (lang Θ moved) g (sh inner)) (by
      rintro v c rfl
      rw [evalN] at hq
      simp only [Prod.mk.injEq] at hq
      exact hq.2.1.symm) callee [np] m hget hlive
    (by simpa using ⟨hnp, hne⟩) (by simp [Apart]) env' (by
      intro m' p ps hw hp hpl hpg hpa hlen hps
      obtain ⟨np', rfl⟩ := List.length_eq_one_iff.1 hlen
      obtain ⟨n1, n2, n3⟩ := hps np' (by simp)
      obtain ⟨-, g2, g3, g4⟩ := ih m' p np' hp hpl hpg hpa n2 n3
      rw [hw, hq] at g2 g3
      refine ⟨g2, g3, g4.mono fun a _ h => ?_⟩
      rcases h with rfl | rfl
      · exact .inr ⟨np', by simp, rfl⟩
      · exact .inl rfl)
  refine ⟨?_, h2, h3, h4.mono fun a _ h => by simpa [eq_comm] using h⟩
  obtain ⟨np', rfl⟩ := List.length_eq_one_iff.1 r5
  obtain ⟨n1, n2, n3⟩ := r6 np' (by simp)
  obtain ⟨g1, -, -, -⟩ := ih m' p np' r2 r3 r4 r4a n2 n3
  rw [r1, hq] at g1
  rw [r8, show (callNG (lang Θ moved) g (sh inner) p [np'] m').1 = Out.map id (callNG (lang Θ moved) g (sh inner) p [np'] m').1 by
    cases (callNG (lang Θ moved) g (sh inner) p [np'] m').1 <;> rfl]
  refine OutRel.map ?_ g1
  intro a b h
  exact (((h.ended _ _ (by omega)).killRange _ _ (by omega)).write _ _ (by omega)).low (by omega)

/-- What is proved of the dependencies of an object. -/
def DepsOkG [CxxData D] (Θ : Empties D W E S) (moved : MV D W E S → MV D W E S) (g : Glue) (ds : List (Obj D W E S)) : Prop :=
  ∀ (m : LMem D W E S) (es : List (Expr LB)), (∀ e ∈ es, e.cat = .lv ∧ e.addr < m.next ∧ m.alive e.addr = true) → (es.Pairwise fun x y => x.addr ≠ y.addr) →
    (es.map fun e => m.get e.addr) = ds.map .obj →
    OutRel (Rel2 (ResG g.resultByRef m.next (callDepsG (lang Θ moved) g (shL ds) es m).2)) (callDepsG (lang Θ moved) g (shL ds) es m).1
        (evalDeps g ds m.world).1 ∧
      (callDepsG (lang Θ moved) g (shL ds) es m).2.world = (evalDeps g ds m.world).2.2 ∧
      (es.map fun e => (callDepsG (lang Θ moved) g (shL ds) es m).2.get e.addr) = (evalDeps g ds m.world).2.1.map .obj ∧
      Keeps (fun a => ∃ e ∈ es, e.addr = a) m (callDepsG (lang Θ moved) g (shL ds) es m).2

theorem callNG_core [CxxData D] (Θ : Empties D W E S) (hΘ : Stateless Θ) (moved : MV D W E S → MV D W E S) (g : Glue)
    (f : Fun D W E S) (cache : Cache D) (ds : List (Obj D W E S))
    (hone : ∀ u, f = .wrapDep u → ∃ d, ds = [.lazyValue (.data d) true]) (ih : DepsOkG Θ moved g ds) : CallOkG Θ moved g (.core f cache ds) := by
  intro m callee np hcat hlt hget hlive hnp hne
  obtain ⟨pg, pe, pv⟩ := layout_spec Θ moved (.func f :: ds.map .obj) (m.alloc (.cache cache))
  have pap := layout_apart Θ moved (.func f :: ds.map .obj) (m.alloc (.cache cache))
  have pem := layout_empty Θ moved (.func f :: ds.map .obj) (m.alloc (.cache cache))
  have pn := pg.next
  rw [alloc_next] at pn pe
  have ga : Grows (fun _ => False) m (m.alloc (.cache cache)) := Grows.alloc _ _ _
  have hclo : (layout (lang Θ moved) (.func f :: ds.map .obj) (m.alloc (.cache cache))).2.get m.next = .cache cache := by
    rw [pg.frame _ (by rw [alloc_next]; omega) (by simp), alloc_get]
  generalize hpl : layout (lang Θ moved) (.func f :: ds.map .obj) (m.alloc (.cache cache)) = p at *
  obtain ⟨fe, ps, m', ⟨f1, f2, f3, fl1, fl2⟩, ⟨al1, -, -⟩, hps, hpw, hpv, hw, hk, hn0, hkept, hcall⟩ := backCallG (E := E) Θ moved g.bindFrontCopies g.coreParamsByValue
    (.stored ⟨.closure, false, false, .none⟩ m.next) (tupleOf p.1 callee.addr) p.1 callee.c callee.cat (tupleOf_constOk _ _ _) [np] m p.2
    (ga.trans pg) (.cache cache) (.func f :: ds.map .obj) (by
      intro el hel
      rcases List.mem_cons.1 hel with rfl | hel
      · exact .inr ⟨_, _, rfl, Nat.le_refl _, by omega⟩
      · rcases pe el hel with h | ⟨b, a, h1, h2, h3⟩
        · exact .inl h
        · exact .inr ⟨b, a, h1, by omega, h3⟩) (by
      refine List.pairwise_cons.2 ⟨?_, pap⟩
      intro el hel a ha
      simp only [Elem.object, Option.some.injEq] at ha
      rcases pe el hel with ⟨b, rfl⟩ | ⟨b, a', rfl, h2, -⟩
      · simp [Elem.object]
      · simp only [Elem.object, ne_eq, Option.some.injEq]
        omega) hclo pv
    (fun e he => by rw [List.mem_singleton] at he; rw [he]; exact hnp) (by simp [Apart]) 0 (by simp)
  simp only [List.drop_zero, List.map_cons, List.map_nil, List.cons_append, List.nil_append] at hpv
  obtain ⟨n', fp, es, rfl⟩ : ∃ a b es, ps = a :: b :: es := by
    have := congrArg List.length hpv
    rcases ps with _ | ⟨a, _ | ⟨b, l⟩⟩ <;> simp at this
    exact ⟨a, b, l, rfl⟩
  simp only [List.map_cons, List.cons.injEq] at hpv
  obtain ⟨x1, x2, x3, x4⟩ := hps fp (by simp)
  obtain ⟨-, hpw⟩ := List.pairwise_cons.1 hpw
  obtain ⟨hpf, hpw⟩ := List.pairwise_cons.1 hpw
  obtain ⟨i1, i2, i3, i4⟩ := ih m' es (fun e he => by
    have := hps e (by simp [he])
    exact ⟨this.1, this.2.2.1, al1 _ this.2.1 this.2.2.1⟩) hpw hpv.2.2
  obtain ⟨b1, b2, b3, b4, b5, b6⟩ := coreBodyG_spec Θ hΘ moved g f cache ds (callDepsG (lang Θ moved) g (shL ds)) fe n' fp es m' f2 m.next f1
    f3 hpv.2.1 x3 x4 (al1 _ f1 f2) (al1 _ x2 x3) (fun e he => by
      have h := hps e (by simp [he])
      exact ⟨h.2.2.1, h.2.2.2, fun h' => hpf e he h'.symm⟩) (by
      intro u hu rs hrs
      obtain ⟨d, rfl⟩ := hone u hu
      simp only [evalDeps, evalN, Out.map, Out.ok.injEq] at hrs
      subst hrs
      rfl) i1 i2 i3 i4
  rw [hw] at b1 b2 b3 b4 b5
  have hc := hcall (LRes D) (fun callee => endingIf g.coreParamsByValue (coreBodyG (lang Θ moved) g (funSh f) (callDepsG (lang Θ moved) g (shL ds)) callee))
  simp only [endingIf_eq] at hc
  generalize hr : coreBodyG (lang Θ moved) g (funSh f) (callDepsG (lang Θ moved) g (shL ds)) fe (n' :: fp :: es) m' = r at *
  obtain ⟨kf, ke⟩ := hkept (ended g.coreParamsByValue m'.next r.2) (fun a ha h1 h2 => by
    rw [ended_get]
    refine b6.frame a ha ?_
    rintro (h | h | ⟨e, he, h⟩)
    · exact h1 h
    · exact h2 fp (by simp) h.symm
    · exact h2 e (by simp [he]) h)
  have kf := kf _ ((congrFun (ended_get _ _ _) _).trans b3) (by simp)
  have ke := ke (.func (coreRaw g f cache ds m.world).2.1 :: (coreRaw g f cache ds m.world).2.2.2.1.map .obj) (by
      simp only [List.length_cons, List.length_nil, List.drop_succ_cons, List.drop_zero, List.map_cons, ended_get, b4]
      rw [b5]) (by
      intro i b hi
      obtain ⟨x, h1, h2⟩ := pem i b hi
      rcases i with _ | i
      · simp only [List.getElem?_cons_zero, Option.some.injEq] at h1
        subst h1
        rw [coreRaw_fun_empty hΘ g f cache ds _ h2]
        rfl
      · simp only [List.getElem?_cons_succ, List.getElem?_map, coreRaw_deps] at h1 ⊢
        rcases hd : ds[i]? with _ | o
        · rw [hd] at h1
          simp at h1
        · rw [hd] at h1
          simp only [Option.map_some, Option.some.injEq] at h1
          subst h1
          obtain ⟨v, c, rfl⟩ := obj_empty h2
          rw [evalDeps_const g ds _ i v c hd])
  have he : callNG (lang Θ moved) g (sh (.core f cache ds)) callee [np] m = (r.1,
      ((ended g.coreParamsByValue m'.next r.2).killRange p.2.next m'.next).write callee.addr (.obj (evalN g (.core f cache ds) m.world).2.1)) := by
    simp only [sh, callNG, look_eq hlive hget, hpl]
    refine callBoundG_eq hc kf ke ?_
    rw [evalN_core_raw, keep_map]
    rcases hb : g.coreParamsByValue <;> simp only [keep, if_true, Bool.false_eq_true, if_false, asCore, asObjs_eq, Option.map_some]
  rw [he]
  rw [evalN_core_raw]
  have hkn := hk.next
  have b6n := b6.next
  refine ⟨?_, (ended_world _ _ _).trans b2, write_self _ _ _, ?_⟩
  · refine OutRel.imp ?_ b1
    intro x y h
    refine (h ((ended g.coreParamsByValue m'.next r.2).killRange p.2.next m'.next) (ended_next _ _ _) (congrFun (ended_get _ _ _) _) ?_ ?_).write _ _ hlt
    · show ((ended g.coreParamsByValue m'.next r.2).alive fe.addr && !(decide (p.2.next ≤ fe.addr) && decide (fe.addr < m'.next))) = _
      rw [ended_alive, b6.alive _ f2, al1 _ f1 f2, decide_eq_false (p := m'.next ≤ fe.addr) (by omega), decide_eq_true f2]
      rcases hcp : g.bindFrontCopies with _ | _
      · have := fl2 hcp _ _ rfl
        rw [decide_eq_false (p := p.2.next ≤ fe.addr) (by omega)]
        simp
      · rw [decide_eq_true (fl1 hcp)]
        simp
    · intro b hb hd
      show ((ended g.coreParamsByValue m'.next r.2).alive b && _) = false
      rw [ended_alive, hd]
      rfl
  refine Keeps.write (Keeps.killRange (Keeps.ended ?_ _ _ hkn) _ _ (by omega)) _ _ (.inr (.inl (.inr rfl)))
  exact (hk.mono fun _ _ h => .inl (moves_np h)).trans b6 fun a ha h => by
    rcases h with h | h | ⟨e, he', h⟩
    · omega
    · omega
    · have := hps e (by simp [he'])
      omega

mutual
/-- Every object. -/
theorem callNG_spec [CxxData D] (Θ : Empties D W E S) (hΘ : Stateless Θ) (moved : MV D W E S → MV D W E S) (g : Glue) (hst : ConstantsStored Θ g) :
    ∀ (o : Obj D W E S), Typed o → CallOkG Θ moved g o
  | .lazyValue v c, _ => callNG_value Θ moved g hst v c
  | .core f cache ds, h => by
    rw [Typed] at h
    exact callNG_core Θ hΘ moved g f cache ds h.2 (callDepsG_spec Θ hΘ moved g hst ds h.1)
  | .unwrapped inner, h => by
    rw [Typed] at h
    exact callNG_unwrapped Θ moved g inner (callNG_spec Θ hΘ moved g hst inner h)
  | .unregularized inner, h => by
    rw [Typed] at h
    exact callNG_unregularized Θ moved g inner (callNG_spec Θ hΘ moved g hst inner h)
/-- All dependencies. -/
theorem callDepsG_spec [CxxData D] (Θ : Empties D W E S) (hΘ : Stateless Θ) (moved : MV D W E S → MV D W E S) (g : Glue) (hst : ConstantsStored Θ g) :
    ∀ (ds : List (Obj D W E S)), TypedL ds → DepsOkG Θ moved g ds
  | [], _ => by
    intro m es _ _ hval
    obtain rfl : es = [] := by simpa using hval
    simp only [shL, callDepsG, evalDeps]
    exact ⟨trivial, trivial, rfl, Keeps.refl _ _⟩
  | d :: ds, h => by
    rw [TypedL] at h
    have ih1 := callNG_spec Θ hΘ moved g hst d h.1
    have ih2 := callDepsG_spec Θ hΘ moved g hst ds h.2
    intro m es hes hpw hval
    obtain ⟨e, es, rfl⟩ : ∃ e es', es = e :: es' := by
      rcases es with _ | ⟨e, es⟩
      · simp at hval
      · exact ⟨e, es, rfl⟩
    simp only [List.map_cons, List.cons.injEq] at hval
    obtain ⟨hpe, hpw⟩ := List.pairwise_cons.1 hpw
    obtain ⟨e1, e2, e3⟩ := hes e (by simp)
    obtain ⟨h1, h2, h3, h4⟩ := ih1 (m.alloc .unit) e ⟨.nullptr, false, false, .xv, m.next⟩ e1 (by rw [alloc_next]; omega)
      (by simp only [Mem.alloc]; rw [if_neg (by omega)]; exact hval.1)
      (by simp [Mem.alloc, e3]) (by simp only; rw [alloc_next]; omega) (by simp only; omega)
    have hwa : (m.alloc (MV.unit : MV D W E S)).world = m.world := rfl
    rw [hwa] at h1 h2 h3
    simp only [shL, callDepsG, evalDeps]
    rcases hr : callNG (lang Θ moved) g (sh d) e [⟨.nullptr, false, false, .xv, m.next⟩] (m.alloc .unit) with ⟨or, m1⟩
    rcases hq : evalN g d m.world with ⟨oq, d', env1⟩
    rw [hr, hq] at h1 h2 h3
    rw [hr] at h4
    simp only at h1 h2 h3 h4
    have hk1 : Keeps (· = e.addr) m m1 := ((Keeps.refl _ m).alloc _).trans h4 fun a ha h => by omega
    have hn := hk1.next
    have hrest : (es.map fun e' => m1.get e'.addr) = ds.map .obj := by
      rw [← hval.2]
      apply List.map_congr_left
      intro e' he'
      exact hk1.frame _ (hes e' (by simp [he'])).2.1 (fun h => hpe e' he' h.symm)
    have hk1' : Keeps (fun a => ∃ e' ∈ e :: es, e'.addr = a) m m1 := hk1.mono fun a _ h => ⟨e, by simp, h.symm⟩
    rcases oq with q | x | _ | _ <;> rcases or with r | x' | _ | _ <;> simp only [OutRel] at h1
    · obtain ⟨g1, g2, g3, g4⟩ := ih2 m1 es (fun e' he' => by
        have := hes e' (by simp [he'])
        exact ⟨this.1, by omega, by rw [hk1.alive _ this.2.1]; exact this.2.2⟩) hpw hrest
      rw [h2] at g1 g2 g3
      simp only
      rcases hq2 : evalDeps g ds env1 with ⟨oq2, ds', env2⟩
      rw [hq2] at g1 g2 g3
      simp only at g1 g2 g3 ⊢
      refine ⟨?_, g2, ?_, (hk1'.trans g4 fun a _ h => by
        obtain ⟨e', he', h⟩ := h
        exact ⟨e', by simp [he'], h⟩).kill _ (Nat.le_refl _)⟩
      · refine OutRel.map ?_ g1
        intro rs qs hrq
        rw [alloc_next] at h1
        have hn' := h4.next
        rw [alloc_next] at hn'
        refine ⟨((h1.keeps (lo' := m.next + 1) (Nat.le_refl _) g4 ?_).kill _ (by omega)).low (by omega),
          hrq.imp fun r q h => (h.kill _ (by omega)).low (by omega)⟩
        rintro a ⟨e', he', rfl⟩
        have := (hes e' (by simp [he'])).2.1
        omega
      · simp only [List.map_cons, List.cons.injEq]
        refine ⟨?_, g3⟩
        show (callDepsG _ _ _ _ m1).2.get e.addr = _
        rw [g4.frame _ (by omega) (by rintro ⟨e', he', h⟩; exact hpe e' he' h.symm), h3]
    · subst h1
      exact ⟨rfl, h2, by simp only [List.map_cons, List.cons.injEq]; exact ⟨h3, hrest⟩, hk1'.kill _ (Nat.le_refl _)⟩
    · exact ⟨trivial, h2, by simp only [List.map_cons, List.cons.injEq]; exact ⟨h3, hrest⟩, hk1'.kill _ (Nat.le_refl _)⟩
    · exact ⟨trivial, h2, by simp only [List.map_cons, List.cons.injEq]; exact ⟨h3, hrest⟩, hk1'.kill _ (Nat.le_refl _)⟩
end

end Pigro.LM
