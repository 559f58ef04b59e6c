import Verif.Proofs.GlueCall
import Verif.Proofs.LazyRun
/-!
# Client programs at memory level, with any way of passing parameters
-/
namespace Pigro.LM
open Cxx
variable {D W E S : Type}

/-! ### Objects stay as constructed -/

theorem call_kind (g : Glue) (f : Fun D W E S) (vs : List (Val D)) (env : Env D W S) (u : UFn D W E S) (h : (f.call g vs env).2.1 = .wrapDep u) :
    ∃ u', f = .wrapDep u' := by
  rcases f with u' | u'
  · rw [call_regularizedG] at h
    simp at h
  · exact ⟨u', rfl⟩

theorem coreRaw_kind [CxxData D] (g : Glue) (f : Fun D W E S) (cache : Cache D) (ds : List (Obj D W E S)) (env : Env D W S) (u : UFn D W E S)
    (h : (coreRaw g f cache ds env).2.1 = .wrapDep u) : ∃ u', f = .wrapDep u' := by
  rcases coreRaw_fun g f cache ds env with h1 | ⟨vs, env', h1⟩
  · exact ⟨u, by rw [← h1, h]⟩
  · exact call_kind g f vs env' u (by rw [← h1, h])

mutual
theorem evalN_typed [CxxData D] (g : Glue) : ∀ (o : Obj D W E S) (env : Env D W S), Typed o → Typed (evalN g o env).2.1
  | .lazyValue v c, env, _ => trivial
  | .core f cache ds, env, h => by
    rw [Typed] at h
    rw [evalN_core_raw]
    have ih := evalDeps_typed g ds env h.1
    rw [← coreRaw_deps g f cache ds env] at ih
    simp only [Typed]
    refine ⟨?_, ?_⟩
    · rcases g.coreParamsByValue <;> simp only [keep, if_true, Bool.false_eq_true, if_false]
      · exact ih
      · exact h.1
    · intro u hu
      have hf : ∃ u', f = .wrapDep u' := by
        rcases hb : g.coreParamsByValue <;> simp only [hb, keep, if_true, Bool.false_eq_true, if_false] at hu
        · exact coreRaw_kind g f cache ds env u hu
        · exact ⟨u, hu⟩
      obtain ⟨u', hf⟩ := hf
      obtain ⟨d, rfl⟩ := h.2 u' hf
      refine ⟨d, ?_⟩
      rw [coreRaw_deps]
      have : (evalDeps g [(.lazyValue (.data d) true : Obj D W E S)] env).2.1 = [.lazyValue (.data d) true] := rfl
      rw [this, keep_self]
  | .unwrapped inner, env, h => by
    rw [Typed] at h
    have ih := evalN_typed g inner env h
    simp only [evalN, Typed]
    rcases g.unwrapParamByValue <;> simp only [keep, if_true, Bool.false_eq_true, if_false]
    · exact ih
    · exact h
  | .unregularized inner, env, h => by
    rw [Typed] at h
    have ih := evalN_typed g inner env h
    simp only [evalN, Typed]
    rcases g.facadeParamByValue <;> simp only [keep, if_true, Bool.false_eq_true, if_false]
    · exact ih
    · exact h
theorem evalDeps_typed [CxxData D] (g : Glue) : ∀ (ds : List (Obj D W E S)) (env : Env D W S), TypedL ds → TypedL (evalDeps g ds env).2.1
  | [], env, _ => trivial
  | d :: ds, env, h => by
    rw [TypedL] at h
    have ih := evalN_typed g d env h.1
    rw [evalDeps]
    rcases hq : evalN g d env with ⟨r | e | _ | _, d', env1⟩ <;> rw [hq] at ih <;> simp only [TypedL]
    · exact ⟨ih, evalDeps_typed g ds env1 h.2⟩
    · exact ⟨ih, h.2⟩
    · exact ⟨ih, h.2⟩
    · exact ⟨ih, h.2⟩
end

theorem call0_typed [CxxData D] (g : Glue) : ∀ (o : Obj D W E S) (env : Env D W S), Typed o → Typed (call0 g o env).2.1
  | .lazyValue v c, env, _ => trivial
  | .core f cache ds, env, h => h
  | .unwrapped inner, env, h => by
    have ih := evalN_typed g (.unwrapped inner) env h
    rw [call0]
    rcases hq : evalN g (.unwrapped inner) env with ⟨r | e | _ | _, d', env1⟩ <;> rw [hq] at ih <;> exact ih
  | .unregularized inner, env, h => by
    rw [Typed] at h
    have ih := call0_typed g inner env h
    simp only [call0, Typed]
    rcases g.facadeParamByValue <;> simp only [keep, if_true, Bool.false_eq_true, if_false]
    · exact ih
    · exact h

/-! ### Calls -/

theorem withNullptrG_spec [CxxData D] (Θ : Empties D W E S) (hΘ : Stateless Θ) (moved : MV D W E S → MV D W E S) (g : Glue) (hst : ConstantsStored Θ g)
    (o : Obj D W E S) (ht : Typed o) (m : LMem D W E S) (callee : Expr LB) (hcat : callee.cat = .lv) (hlt : callee.addr < m.next)
    (hget : m.get callee.addr = .obj o) (hlive : m.alive callee.addr = true) :
    OutRel (ResG g.resultByRef m.next (withNullptr (callNG (lang Θ moved) g (sh o)) callee m).2) (withNullptr (callNG (lang Θ moved) g (sh o)) callee m).1
        (evalN g o m.world).1 ∧
      (withNullptr (callNG (lang Θ moved) g (sh o)) callee m).2.world = (evalN g o m.world).2.2 ∧
      (withNullptr (callNG (lang Θ moved) g (sh o)) callee m).2.get callee.addr = .obj (evalN g o m.world).2.1 ∧
      Keeps (· = callee.addr) m (withNullptr (callNG (lang Θ moved) g (sh o)) callee m).2 := by
  have ka : Keeps (fun _ => False) m (m.alloc .unit) := Keeps.alloc (Keeps.refl _ _) _
  obtain ⟨h1, h2, h3, h4⟩ := callNG_spec Θ hΘ moved g hst o ht (m.alloc .unit) callee ⟨.nullptr, false, false, .xv, m.next⟩ hcat
    (by rw [alloc_next]; omega) (by rw [ka.frame _ hlt (by simp)]; exact hget) (by rw [ka.alive _ hlt]; exact hlive) (by rw [alloc_next]; simp only; omega) (by simp only; omega)
  have hw : (m.alloc (.unit : MV D W E S)).world = m.world := rfl
  rw [hw] at h1 h2 h3
  refine ⟨OutRel.imp (fun r q h => ?_) h1, h2, h3, ?_⟩
  · rw [alloc_next] at h
    exact (h.kill _ (by omega)).low (by omega)
  exact ((ka.mono fun _ _ h => h.elim).trans h4 (by intro a ha h; simp only at h; omega)).kill _ (Nat.le_refl _)

theorem callZG_spec [CxxData D] (Θ : Empties D W E S) (hΘ : Stateless Θ) (moved : MV D W E S → MV D W E S) (g : Glue) (hst : ConstantsStored Θ g) :
    ∀ (o : Obj D W E S), Typed o → ∀ (m : LMem D W E S)
    (callee : Expr LB), callee.cat = .lv → callee.addr < m.next → m.get callee.addr = .obj o → m.alive callee.addr = true →
    (callZG (lang Θ moved) g (sh o) callee [] m).1 = (call0 g o m.world).1 ∧
      (callZG (lang Θ moved) g (sh o) callee [] m).2.world = (call0 g o m.world).2.2 ∧
      (callZG (lang Θ moved) g (sh o) callee [] m).2.get callee.addr = .obj (call0 g o m.world).2.1 ∧
      Keeps (· = callee.addr) m (callZG (lang Θ moved) g (sh o) callee [] m).2
  | .lazyValue v c, _, m, callee, _, _, h, _ => ⟨rfl, rfl, h, Keeps.refl _ _⟩
  | .core f c ds, _, m, callee, _, _, h, _ => ⟨rfl, rfl, h, Keeps.refl _ _⟩
  | .unwrapped inner, ht, m, callee, hcat, hlt, hget, hlive => by
    obtain ⟨h1, h2, h3, h4⟩ := withNullptrG_spec Θ hΘ moved g hst (.unwrapped inner) ht m callee hcat hlt hget hlive
    rcases hq : evalN g (.unwrapped inner) m.world with ⟨q, o', env'⟩
    rw [hq] at h1 h2 h3
    simp only [sh] at h1 h2 h3 h4 ⊢
    rcases hr : withNullptr (callNG (lang Θ moved) g (.unwrapped (sh inner))) callee m with ⟨r, m'⟩
    rw [hr] at h1 h2 h3 h4
    simp only at h1 h2 h3 h4
    simp only [callZG, call0, hr, hq]
    rcases r with x | e | _ | _ <;> rcases q with y | e' | _ | _ <;> simp only [OutRel] at h1
    · simp only [h1.read]
      rcases y.live with _ | _ <;> exact ⟨rfl, h2, h3, h4⟩
    · subst h1
      exact ⟨rfl, h2, h3, h4⟩
    · exact ⟨rfl, h2, h3, h4⟩
    · exact ⟨rfl, h2, h3, h4⟩
  | .unregularized inner, ht, m, callee, hcat, hlt, hget, hlive => by
    have ih := callZG_spec Θ hΘ moved g hst inner ht
    rcases hq : call0 g inner m.world with ⟨q, inner', env'⟩
    obtain ⟨⟨m', p, ps, lo, x, r1, r2, r3, r4, r4a, r5, -, -, r8⟩, h2, h3, h4⟩ := unregularizedCodeG_spec Θ moved g inner inner'
      (callZG (lang Θ moved) g (sh inner)) (by
        rintro v c rfl
        rw [call0] at hq
        · simp only [Prod.mk.injEq] at hq
          exact hq.2.1.symm
        · simp
        · simp) callee [] m hget hlive (by simp) (by simp [Apart]) env' (by
        intro m' p ps hw hp hpl hpg hpa hlen hps
        obtain rfl := List.eq_nil_of_length_eq_zero hlen
        obtain ⟨-, g2, g3, g4⟩ := ih m' p hp hpl hpg hpa
        rw [hw, hq] at g2 g3
        exact ⟨g2, g3, g4.mono fun _ _ h => .inl h⟩)
    obtain rfl := List.eq_nil_of_length_eq_zero r5
    obtain ⟨g1, -, -, -⟩ := ih m' p r2 r3 r4 r4a
    rw [r1, hq] at g1
    have h1 : (unregularizedCodeG (lang Θ moved) g (callZG (lang Θ moved) g (sh inner)) callee [] m).1 = q := by rw [r8]; exact g1
    simp only [sh, callZG, look_eq hlive hget, call0, hq, voidResult]
    exact ⟨by rw [h1]; rfl, h2, h3, h4.mono fun a _ h => by simpa using h⟩

/-! ### Programs -/

/-- Corresponding states: as `Sim`, and no two variables are the same object. -/
structure SimG (t : MState D W E S) (s : State D W E S) : Prop extends Sim t s where
  apart : t.vars.Pairwise (· ≠ ·)

theorem varRel_lt {m : LMem D W E S} : ∀ {as : List Nat} {os : List (Obj D W E S)}, Rel2 (VarRel m) as os → ∀ a ∈ as, a < m.next
  | [], [], _, a, h => by simp at h
  | b :: as, o :: os, hv, a, h => by
    rcases List.mem_cons.1 h with rfl | h
    · exact hv.1.1
    · exact varRel_lt hv.2 a h

/-- One variable's object has changed. -/
theorem vars_set {m m' : LMem D W E S} {b : Nat} (hk : Keeps (· = b) m m') {o' : Obj D W E S} (ho : m'.get b = .obj o') (ht : Typed o') :
    ∀ {as : List Nat} {os : List (Obj D W E S)} (i : Nat), as.Pairwise (· ≠ ·) → as[i]? = some b → Rel2 (VarRel m) as os → Rel2 (VarRel m') as (os.set i o')
  | [], [], _, _, _, _ => trivial
  | a :: as, o :: os, i, hp, hi, h => by
    have hn := hk.next
    have h1 := h.1.1
    obtain ⟨hpa, hpw⟩ := List.pairwise_cons.1 hp
    rcases i with _ | i
    · simp only [List.getElem?_cons_zero, Option.some.injEq] at hi
      subst hi
      refine ⟨⟨by omega, ho, by rw [hk.alive a h1]; exact h.1.2.2.1, ht⟩, ?_⟩
      have key : ∀ {as : List Nat} {os : List (Obj D W E S)}, (∀ x ∈ as, a ≠ x) → Rel2 (VarRel m) as os → Rel2 (VarRel m') as os := by
        intro as
        induction as with
        | nil => intro os _ h; cases os <;> simp_all [Rel2]
        | cons x as ih =>
          intro os hx h
          rcases os with _ | ⟨o, os⟩
          · simp [Rel2] at h
          have hx1 := h.1.1
          refine ⟨⟨by omega, ?_, by rw [hk.alive x hx1]; exact h.1.2.2.1, h.1.2.2.2⟩, ih (fun y hy => hx y (by simp [hy])) h.2⟩
          rw [hk.frame x hx1 (fun h => hx x (by simp) h.symm)]
          exact h.1.2.1
      exact key hpa h.2
    · simp only [List.getElem?_cons_succ] at hi
      have hmem : b ∈ as := List.mem_of_getElem? hi
      refine ⟨⟨by omega, ?_, by rw [hk.alive a h1]; exact h.1.2.2.1, h.1.2.2.2⟩, vars_set hk ho ht i hpw hi h.2⟩
      rw [hk.frame a h1 (fun h => hpa b hmem h)]
      exact h.1.2.1

/-- New objects are new. -/
theorem stepM_apart [CxxData D] (Θ : Empties D W E S) (moved : MV D W E S → MV D W E S) (byRef : Bool) (t : MState D W E S) (s : State D W E S) (hs : Sim t s)
    (hp : t.vars.Pairwise (· ≠ ·)) (op : Op D W E S) : (stepM (lang Θ moved) byRef t op).2.vars.Pairwise (· ≠ ·) := by
  have hnew : ∀ a, t.mem.next ≤ a → (t.vars ++ [a]).Pairwise (· ≠ ·) := by
    intro a ha
    refine List.pairwise_append.2 ⟨hp, by simp, ?_⟩
    intro x hx y hy
    rw [List.mem_singleton] at hy
    subst hy
    have := varRel_lt hs.vars x hx
    omega
  rcases op with ⟨f, deps⟩ | i | i | i | h
  · have ka : Keeps (fun _ => False) t.mem (t.mem.alloc (.user f)) := Keeps.alloc (Keeps.refl _ _) _
    have na : (t.mem.alloc (.user f)).next = t.mem.next + 1 := rfl
    have hv : Rel2 (fun a o => a < t.mem.next ∧ VarRel (t.mem.alloc (.user f)) a o) t.vars s.vars :=
      hs.vars.imp fun a o h => ⟨h.1, (vars_keeps ka (as := [a]) (os := [o]) ⟨h, trivial⟩).1⟩
    have hpl := placeArgs_spec Θ moved t.vars s.vars t.mem.next deps (t.mem.alloc (.user f)) (by omega) hv
    rcases hr : resolveAll s.vars deps with _ | ds
    · simp only [hr] at hpl
      simp only [stepM, hpl]
      exact hp
    · simp only [hr] at hpl
      obtain ⟨es, m1, h1, pl⟩ := hpl
      have hf : Den Θ m1 ⟨(lang Θ moved).base (.user f), false, false, .xv, t.mem.next⟩ (.user f : MV D W E S) :=
        Den.keeps (m := t.mem.alloc (.user f)) ⟨by rw [na]; simp only; omega, rfl, alloc_get _ _⟩ pl.keeps (by simp)
      have hl := pigroLazyM_spec Θ moved ⟨(lang Θ moved).base (.user f), false, false, .xv, t.mem.next⟩ es f ds m1 hf pl.den (by
        refine List.pairwise_cons.2 ⟨?_, pl.apart⟩
        intro x hx _
        rcases hc : x.cat with _ | _
        · have := pl.lv x hx hc
          simp only
          omega
        · have := pl.xv x hx hc
          simp only
          omega)
      rcases hm : pigroLazy f ds with _ | o
      · simp only [hm] at hl
        simp only [stepM, h1, hl]
        exact hp
      · simp only [hm] at hl
        obtain ⟨a, m2, h2, mk⟩ := hl
        simp only [stepM, h1, h2]
        have := (ka.trans pl.keeps (by simp)).next
        have := mk.new
        exact hnew a (by omega)
  · rcases h1 : t.vars[i]? with _ | a
    · simp only [stepM, h1]
      exact hp
    · simp only [stepM, h1, decayCopy]
      exact hnew _ (Nat.le_refl _)
  · simp only [stepM]
    split <;> (try split) <;> exact hp
  · simp only [stepM]
    split <;> (try split) <;> exact hp
  · exact hp

theorem stepMG_spec [CxxData D] (Θ : Empties D W E S) (hΘ : Stateless Θ) (moved : MV D W E S → MV D W E S) (g : Glue) (hst : ConstantsStored Θ g)
    (t : MState D W E S) (s : State D W E S) (hs : SimG t s) (op : Op D W E S) :
    (stepMG (lang Θ moved) g t op).1 = seen (step g s op).1 ∧ SimG (stepMG (lang Θ moved) g t op).2 (step g s op).2 := by
  have other : (∀ i, op ≠ .call i) → (∀ i, op ≠ .poll i) → stepMG (lang Θ moved) g t op = stepM (lang Θ moved) g.resultByRef t op ∧
      step g s op = step (written g.resultByRef) s op := by
    intro h1 h2
    rcases op with ⟨f, deps⟩ | i | i | i | h
    · exact ⟨by rw [stepMG] <;> simp, rfl⟩
    · exact ⟨by rw [stepMG] <;> simp, rfl⟩
    · exact absurd rfl (h1 i)
    · exact absurd rfl (h2 i)
    · exact ⟨by rw [stepMG] <;> simp, rfl⟩
  rcases op with ⟨f, deps⟩ | i | i | i | h
  · obtain ⟨e1, e2⟩ := other (by simp) (by simp)
    obtain ⟨h1, h2, -⟩ := stepM_spec Θ moved g.resultByRef t s hs.toSim (.mk f deps)
    rw [e1, e2]
    exact ⟨h1, h2, stepM_apart Θ moved g.resultByRef t s hs.toSim hs.apart _⟩
  · obtain ⟨e1, e2⟩ := other (by simp) (by simp)
    obtain ⟨h1, h2, -⟩ := stepM_spec Θ moved g.resultByRef t s hs.toSim (.copy i)
    rw [e1, e2]
    exact ⟨h1, h2, stepM_apart Θ moved g.resultByRef t s hs.toSim hs.apart _⟩
  · rcases rel2_get hs.vars i with ⟨h1, h2⟩ | ⟨a, o, h1, h2, h3⟩
    · simp only [stepMG, step, h1, h2]
      exact ⟨rfl, hs⟩
    · simp only [stepMG, step, h1, h2, h3.2.1]
      obtain ⟨g1, g2, g3, g4⟩ := callZG_spec Θ hΘ moved g hst o h3.2.2.2 t.mem ⟨(lang Θ moved).base (.obj o), false, false, .lv, a⟩ rfl h3.1 h3.2.1 h3.2.2.1
      have ht := call0_typed g o s.env h3.2.2.2
      rw [hs.env] at g1 g2 g3
      rcases hq : call0 g o s.env with ⟨r, o', env'⟩
      rw [hq] at g1 g2 g3 ht
      simp only at g1 g2 g3 ht
      exact ⟨by rw [g1]; rfl, ⟨vars_set g4 g3 ht i hs.apart h1 hs.vars, g2⟩, hs.apart⟩
  · rcases rel2_get hs.vars i with ⟨h1, h2⟩ | ⟨a, o, h1, h2, h3⟩
    · simp only [stepMG, step, h1, h2]
      exact ⟨rfl, hs⟩
    · simp only [stepMG, step, h1, h2, h3.2.1]
      obtain ⟨g1, g2, g3, g4⟩ := withNullptrG_spec Θ hΘ moved g hst o h3.2.2.2 t.mem ⟨(lang Θ moved).base (.obj o), false, false, .lv, a⟩ rfl h3.1 h3.2.1 h3.2.2.1
      have ht := evalN_typed g o s.env h3.2.2.2
      rw [hs.env] at g1 g2 g3
      rcases hq : evalN g o s.env with ⟨r, o', env'⟩
      rw [hq] at g1 g2 g3 ht
      simp only at g1 g2 g3 ht
      refine ⟨?_, ⟨vars_set g4 g3 ht i hs.apart h1 hs.vars, g2⟩, hs.apart⟩
      have := OutRel.eq (OutRel.map (Q := fun a b => a = b)
        (f := fun x => (LRes.read (withNullptr (callNG (lang Θ moved) g (sh o)) ⟨(lang Θ moved).base (.obj o), false, false, .lv, a⟩ t.mem).2 x, x.isChanged))
        (g := fun r => (if r.live then some r.value else none, r.isChanged)) (fun x y h => by rw [h.read, h.changed]) g1)
      simp only [seen]
      rw [this]
  · obtain ⟨e1, e2⟩ := other (by simp) (by simp)
    obtain ⟨h1, h2, -⟩ := stepM_spec Θ moved g.resultByRef t s hs.toSim (.poke h)
    rw [e1, e2]
    exact ⟨h1, h2, stepM_apart Θ moved g.resultByRef t s hs.toSim hs.apart _⟩

/-- Only the evaluated object changes. -/
theorem stepMG_keeps [CxxData D] (Θ : Empties D W E S) (hΘ : Stateless Θ) (moved : MV D W E S → MV D W E S) (g : Glue) (hst : ConstantsStored Θ g)
    (t : MState D W E S) (s : State D W E S) (hs : SimG t s) (op : Op D W E S) :
    Keeps (fun a => ∃ i, op.evaluates i ∧ t.vars[i]? = some a) t.mem (stepMG (lang Θ moved) g t op).2.mem := by
  rcases op with ⟨f, deps⟩ | i | i | i | h
  · have e : stepMG (lang Θ moved) g t (.mk f deps) = stepM (lang Θ moved) g.resultByRef t (.mk f deps) := by rw [stepMG] <;> simp
    rw [e]
    exact (stepM_spec Θ moved g.resultByRef t s hs.toSim (.mk f deps)).2.2.mono fun _ _ h => h.elim
  · have e : stepMG (lang Θ moved) g t (.copy i) = stepM (lang Θ moved) g.resultByRef t (.copy i) := by rw [stepMG] <;> simp
    rw [e]
    exact (stepM_spec Θ moved g.resultByRef t s hs.toSim (.copy i)).2.2.mono fun _ _ h => h.elim
  · rcases rel2_get hs.vars i with ⟨h1, h2⟩ | ⟨a, o, h1, h2, h3⟩
    · simp only [stepMG, h1]
      exact Keeps.refl _ _
    · simp only [stepMG, h1, h3.2.1]
      obtain ⟨-, -, -, g4⟩ := callZG_spec Θ hΘ moved g hst o h3.2.2.2 t.mem ⟨(lang Θ moved).base (.obj o), false, false, .lv, a⟩ rfl h3.1 h3.2.1 h3.2.2.1
      exact g4.mono fun x _ h => ⟨i, rfl, by rw [h1, h]⟩
  · rcases rel2_get hs.vars i with ⟨h1, h2⟩ | ⟨a, o, h1, h2, h3⟩
    · simp only [stepMG, h1]
      exact Keeps.refl _ _
    · simp only [stepMG, h1, h3.2.1]
      obtain ⟨-, -, -, g4⟩ := withNullptrG_spec Θ hΘ moved g hst o h3.2.2.2 t.mem ⟨(lang Θ moved).base (.obj o), false, false, .lv, a⟩ rfl h3.1 h3.2.1 h3.2.2.1
      exact g4.mono fun x _ h => ⟨i, rfl, by rw [h1, h]⟩
  · have e : stepMG (lang Θ moved) g t (.poke h) = stepM (lang Θ moved) g.resultByRef t (.poke h) := by rw [stepMG] <;> simp
    rw [e]
    exact (stepM_spec Θ moved g.resultByRef t s hs.toSim (.poke h)).2.2.mono fun _ _ h => h.elim

theorem runMG_spec [CxxData D] (Θ : Empties D W E S) (hΘ : Stateless Θ) (moved : MV D W E S → MV D W E S) (g : Glue) (hst : ConstantsStored Θ g) :
    ∀ (ops : List (Op D W E S)) (t : MState D W E S) (s : State D W E S), SimG t s →
      (runMG (lang Θ moved) g t ops).1 = (run g s ops).1.map seen ∧ SimG (runMG (lang Θ moved) g t ops).2 (run g s ops).2
  | [], _, _, hs => ⟨rfl, hs⟩
  | op :: ops, t, s, hs => by
    obtain ⟨h1, h2⟩ := stepMG_spec Θ hΘ moved g hst t s hs op
    obtain ⟨h3, h4⟩ := runMG_spec Θ hΘ moved g hst ops _ _ h2
    simp only [runMG, run, List.map_cons, h1, h3]
    exact ⟨trivial, h4⟩

theorem simG_init (w : W) : SimG (MState.init w : MState D W E S) (State.init w) := ⟨sim_init w, List.Pairwise.nil⟩

end Pigro.LM
