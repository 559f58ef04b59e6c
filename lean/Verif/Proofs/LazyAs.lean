import Verif.Proofs.LazyRun
import Verif.Model.LazyAs
/-!
# Lazy functions called through const references or as rvalues: lemmas for C61
-/
namespace Pigro.LM
open Cxx
variable {D W E S : Type}

/-- What `pigro::lazy` makes. -/
def Facade (o : Obj D W E S) : Prop := ∃ inner, o = .unregularized inner

theorem callZ_any [CxxData D] (Θ : Empties D W E S) (moved : MV D W E S → MV D W E S) (byRef : Bool) (o : Obj D W E S) (hf : Facade o) (ht : Typed o) (m : LMem D W E S)
    (callee : Expr LB) (hget : m.get callee.addr = .obj o) (hlive : m.alive callee.addr = true) :
    (callZ (lang Θ moved) byRef (sh o) callee [] m).1 = (call0 (written byRef) o m.world).1 ∧
      (callZ (lang Θ moved) byRef (sh o) callee [] m).2.world = (call0 (written byRef) o m.world).2.2 ∧
      (call0 (written byRef) o m.world).2.1 = o ∧ Keeps (fun _ => False) m (callZ (lang Θ moved) byRef (sh o) callee [] m).2 := by
  obtain ⟨inner, rfl⟩ := hf
  have ih := callZ_spec Θ moved byRef inner ht
  rcases hq : call0 (written byRef) inner m.world with ⟨q, inner', env'⟩
  have hb : (written byRef).facadeParamByValue = true := rfl
  obtain ⟨h1, h2, h3⟩ := unregularizedCode_spec Θ moved inner (callZ (lang Θ moved) byRef (sh inner)) callee [] m hget hlive (by simp) (by simp [Apart])
    (fun _ a b => a = b) (fun _ _ _ _ _ h => h) (fun _ _ _ _ _ h => h) q env' (by
      intro m' p ps hw hp hpl hpg hpa hlen hps
      obtain rfl := List.eq_nil_of_length_eq_zero hlen
      obtain ⟨g1, g2, g3, g4⟩ := ih m' p hp hpl hpg hpa
      rw [hw, hq] at g1 g2
      exact ⟨OutRel.of_eq g1, g2, g4.mono (by simp)⟩)
  have h1 := OutRel.eq h1
  simp only [sh, callZ, look_eq hlive hget, call0, hq, hb, keep_true, voidResult]
  exact ⟨by rw [h1]; rfl, h2, trivial, h3.mono (by simp)⟩

theorem callN_any [CxxData D] (Θ : Empties D W E S) (moved : MV D W E S → MV D W E S) (byRef : Bool) (o : Obj D W E S) (hf : Facade o) (ht : Typed o) (m : LMem D W E S)
    (callee np : Expr LB) (hget : m.get callee.addr = .obj o) (hlive : m.alive callee.addr = true) (hnp : np.addr < m.next) (hne : np.addr ≠ callee.addr) :
    OutRel (ResRel byRef (callN (lang Θ moved) byRef (sh o) callee [np] m).2) (callN (lang Θ moved) byRef (sh o) callee [np] m).1
        (evalN (written byRef) o m.world).1 ∧
      (callN (lang Θ moved) byRef (sh o) callee [np] m).2.world = (evalN (written byRef) o m.world).2.2 ∧
      (evalN (written byRef) o m.world).2.1 = o ∧
      Keeps (· = np.addr) m (callN (lang Θ moved) byRef (sh o) callee [np] m).2 := by
  obtain ⟨inner, rfl⟩ := hf
  have ih : CallOk Θ moved byRef inner := callN_spec Θ moved byRef inner ht
  rcases hq : evalN (written byRef) inner m.world with ⟨o, inner', env'⟩
  have hb : (written byRef).facadeParamByValue = true := rfl
  have hb2 : (written byRef).resultByRef = byRef := rfl
  simp only [evalN, hq, hb, hb2, keep_true, sh, callN]
  obtain ⟨h1, h2, h3⟩ := unregularizedCode_spec Θ moved inner (callN (lang Θ moved) byRef (sh inner)) callee [np] m hget hlive
    (by simpa using ⟨hnp, hne⟩) (by simp [Apart]) (ResRel byRef) (fun m lo hi r q h => PreRes.killRange h _ _)
    (fun m a x r q h => PreRes.write h _ _) (o.map (LazyRes.through (byRef && true))) env' (by
      intro m' p ps hw hp hpl hpg hpa hlen hps
      obtain ⟨np', rfl⟩ := List.length_eq_one_iff.1 hlen
      obtain ⟨n1, n2, n3⟩ := hps np' (by simp)
      obtain ⟨g1, g2, g3, g4⟩ := ih m' p np' hp hpl hpg hpa n2 n3
      rw [hw, hq] at g1 g2
      refine ⟨?_, g2, g4.mono fun a _ h => ⟨np', by simp, h.symm⟩⟩
      have h := OutRel.map (E := E) (f := id) (g := LazyRes.through (byRef && true)) (fun _ _ h => ResRel.through h) g1
      rwa [show ∀ x : Out E (LRes D), Out.map id x = x by intro x; cases x <;> rfl] at h)
  exact ⟨h1, h2, trivial, h3.mono fun _ _ h => moves_np h⟩

theorem withNullptr_any [CxxData D] (Θ : Empties D W E S) (moved : MV D W E S → MV D W E S) (byRef : Bool) (o : Obj D W E S) (hf : Facade o) (ht : Typed o) (m : LMem D W E S)
    (callee : Expr LB) (hlt : callee.addr < m.next) (hget : m.get callee.addr = .obj o) (hlive : m.alive callee.addr = true) :
    OutRel (ResRel byRef (withNullptr (callN (lang Θ moved) byRef (sh o)) callee m).2) (withNullptr (callN (lang Θ moved) byRef (sh o)) callee m).1
        (evalN (written byRef) o m.world).1 ∧
      (withNullptr (callN (lang Θ moved) byRef (sh o)) callee m).2.world = (evalN (written byRef) o m.world).2.2 ∧
      (evalN (written byRef) o m.world).2.1 = o ∧
      Keeps (fun _ => False) m (withNullptr (callN (lang Θ moved) byRef (sh o)) callee m).2 := by
  have ka : Keeps (fun _ => False) m (m.alloc .unit) := Keeps.alloc (Keeps.refl _ _) _
  obtain ⟨h1, h2, h3, h4⟩ := callN_any Θ moved byRef o hf ht (m.alloc .unit) callee ⟨.nullptr, false, false, .xv, m.next⟩
    (by rw [ka.frame _ hlt (by simp)]; exact hget) (by rw [ka.alive _ hlt]; exact hlive) (by rw [alloc_next]; simp only; omega) (by simp only; omega)
  have hw : (m.alloc (.unit : MV D W E S)).world = m.world := rfl
  rw [hw] at h1 h2 h3
  refine ⟨OutRel.imp (fun _ _ h => PreRes.kill h _) h1, h2, h3, ?_⟩
  exact (ka.trans h4 (by intro a ha h; simp only at h; omega)).kill _ (Nat.le_refl _)

/-! ### All variables are facades -/

theorem facade_pigroLazy [CxxData D] (f : UFn D W E S) (ds : List (DepArg D W E S)) (o : Obj D W E S) (h : pigroLazy f ds = some o) : Facade o := by
  rcases h1 : ensureAll ds with _ | os
  · simp [pigroLazy, h1] at h
  · simp only [pigroLazy, h1, Option.some.injEq] at h
    exact ⟨_, h.symm⟩

theorem facade_call0 [CxxData D] (g : Glue) (o : Obj D W E S) (env : Env D W S) (h : Facade o) : Facade (call0 g o env).2.1 := by
  obtain ⟨inner, rfl⟩ := h
  simp only [call0]
  exact ⟨_, rfl⟩

theorem facade_evalN [CxxData D] (g : Glue) (o : Obj D W E S) (env : Env D W S) (h : Facade o) : Facade (evalN g o env).2.1 := by
  obtain ⟨inner, rfl⟩ := h
  simp only [evalN]
  exact ⟨_, rfl⟩

theorem facade_step [CxxData D] (g : Glue) (s : State D W E S) (h : ∀ o ∈ s.vars, Facade o) (op : Op D W E S) :
    ∀ o ∈ (step g s op).2.vars, Facade o := by
  have hset : ∀ (i : Nat) (o' : Obj D W E S), Facade o' → ∀ o ∈ s.vars.set i o', Facade o := by
    intro i o' ho' o ho
    rcases List.mem_or_eq_of_mem_set ho with ho | rfl
    · exact h o ho
    · exact ho'
  rcases op with ⟨f, deps⟩ | i | i | i | k
  · simp only [step]
    rcases hr : (resolveAll s.vars deps).bind (pigroLazy f) with _ | o
    · simpa [hr] using h
    · simp only []
      intro o' ho'
      rcases List.mem_append.1 ho' with ho' | ho'
      · exact h o' ho'
      · rw [List.mem_singleton] at ho'
        subst ho'
        rcases hd : resolveAll s.vars deps with _ | ds
        · simp [hd] at hr
        · rw [hd] at hr
          exact facade_pigroLazy f ds _ hr
  · simp only [step]
    rcases hv : s.vars[i]? with _ | o
    · exact h
    · simp only []
      intro o' ho'
      rcases List.mem_append.1 ho' with ho' | ho'
      · exact h o' ho'
      · rw [List.mem_singleton] at ho'
        subst ho'
        exact h _ (List.mem_of_getElem? hv)
  · simp only [step]
    rcases hv : s.vars[i]? with _ | o
    · exact h
    · exact hset _ _ (facade_call0 g o _ (h _ (List.mem_of_getElem? hv)))
  · simp only [step]
    rcases hv : s.vars[i]? with _ | o
    · exact h
    · exact hset _ _ (facade_evalN g o _ (h _ (List.mem_of_getElem? hv)))
  · exact h

/-! ### Programs -/

theorem stepAs_spec [CxxData D] (Θ : Empties D W E S) (moved : MV D W E S → MV D W E S) (byRef : Bool) (t : MState D W E S) (s : State D W E S) (hs : Sim t s)
    (hf : ∀ o ∈ s.vars, Facade o) (c : Bool) (cat : Cat) (op : Op D W E S) :
    (stepAs (lang Θ moved) byRef t c cat op).1 = seen (step (written byRef) s op).1 ∧
      Sim (stepAs (lang Θ moved) byRef t c cat op).2 (step (written byRef) s op).2 ∧
      Keeps (fun _ => False) t.mem (stepAs (lang Θ moved) byRef t c cat op).2.mem := by
  rcases op with ⟨f, deps⟩ | i | i | i | h
  · exact stepM_spec Θ moved byRef t s hs (.mk f deps)
  · exact stepM_spec Θ moved byRef t s hs (.copy i)
  · rcases rel2_get hs.vars i with ⟨h1, h2⟩ | ⟨a, o, h1, h2, h3⟩
    · simp only [stepAs, step, h1, h2]
      exact ⟨rfl, hs, Keeps.refl _ _⟩
    · simp only [stepAs, step, h1, h2, h3.2.1]
      obtain ⟨g1, g2, g3, g4⟩ := callZ_any Θ moved byRef o (hf o (List.mem_of_getElem? h2)) h3.2.2.2 t.mem ⟨(lang Θ moved).base (.obj o), c, false, cat, a⟩ h3.2.1 h3.2.2.1
      rw [hs.env] at g1 g2 g3
      rcases hq : call0 (written byRef) o s.env with ⟨r, o', env'⟩
      rw [hq] at g1 g2 g3
      simp only at g1 g2 g3
      subst g3
      simp only [set_get_self _ _ _ h2]
      exact ⟨by rw [g1]; rfl, ⟨vars_keeps g4 hs.vars, g2⟩, g4⟩
  · rcases rel2_get hs.vars i with ⟨h1, h2⟩ | ⟨a, o, h1, h2, h3⟩
    · simp only [stepAs, step, h1, h2]
      exact ⟨rfl, hs, Keeps.refl _ _⟩
    · simp only [stepAs, step, h1, h2, h3.2.1]
      obtain ⟨g1, g2, g3, g4⟩ := withNullptr_any Θ moved byRef o (hf o (List.mem_of_getElem? h2)) h3.2.2.2 t.mem ⟨(lang Θ moved).base (.obj o), c, false, cat, a⟩ h3.1 h3.2.1 h3.2.2.1
      rw [hs.env] at g1 g2 g3
      rcases hq : evalN (written byRef) o s.env with ⟨r, o', env'⟩
      rw [hq] at g1 g2 g3
      simp only at g1 g2 g3
      subst g3
      simp only [set_get_self _ _ _ h2]
      refine ⟨?_, ⟨vars_keeps g4 hs.vars, g2⟩, g4⟩
      have := OutRel.eq (OutRel.map (Q := fun a b => a = b)
        (f := fun x => (LRes.read (withNullptr (callN (lang Θ moved) byRef (sh o')) ⟨(lang Θ moved).base (.obj o'), c, false, cat, a⟩ t.mem).2 x, x.isChanged))
        (g := fun r => (if r.live then some r.value else none, r.isChanged)) (fun x y h => by rw [ResRel.read h, h.1]) g1)
      simp only [seen]
      rw [this]
  · exact stepM_spec Θ moved byRef t s hs (.poke h)

theorem runAs_spec [CxxData D] (Θ : Empties D W E S) (moved : MV D W E S → MV D W E S) (byRef : Bool) : ∀ (ops : List ((Bool × Cat) × Op D W E S)) (t : MState D W E S)
    (s : State D W E S), Sim t s → (∀ o ∈ s.vars, Facade o) →
    (runAs (lang Θ moved) byRef t ops).1 = (run (written byRef) s (ops.map (·.2))).1.map seen ∧
      Sim (runAs (lang Θ moved) byRef t ops).2 (run (written byRef) s (ops.map (·.2))).2 ∧
      (∀ o ∈ (run (written byRef) s (ops.map (·.2))).2.vars, Facade o) ∧
      Keeps (fun _ => False) t.mem (runAs (lang Θ moved) byRef t ops).2.mem
  | [], _, _, hs, hf => ⟨rfl, hs, hf, Keeps.refl _ _⟩
  | op :: ops, t, s, hs, hf => by
    obtain ⟨h1, h2, h0⟩ := stepAs_spec Θ moved byRef t s hs hf op.1.1 op.1.2 op.2
    obtain ⟨h3, h4, h5, h6⟩ := runAs_spec Θ moved byRef ops _ _ h2 (facade_step _ s hf op.2)
    simp only [runAs, run, List.map_cons, h1, h3]
    exact ⟨trivial, h4, h5, h0.trans h6 (by simp)⟩

end Pigro.LM
