import Verif.Model.Overload
import Verif.Props.Partition
/-!
# C40: overload
-/
namespace Pigro.Ovl
variable {F V : Type} [DecidableEq F]

/-- Specification of overload resolution, without reference to an order of candidates: `cand` is the set
of candidates. -/
def Best (cand : F → Prop) (viable : F → Bool) (better : F → F → Bool) (f : F) : Prop :=
  cand f ∧ viable f = true ∧ ∀ g, cand g → viable g = true → g ≠ f → better f g = true

/-- Specification of the outcome. -/
def Outcome (cand : F → Prop) (viable : F → Bool) (better : F → F → Bool) : Pick F → Prop
  | .noMatch => ∀ g, cand g → viable g = false
  | .ambiguous => (∃ g, cand g ∧ viable g = true) ∧
      ¬ ∃ f, Best cand viable better f ∧ ∀ g, Best cand viable better g → g = f
  | .pick f => Best cand viable better f ∧ ∀ g, Best cand viable better g → g = f

theorem mem_best {fs : List F} {viable : F → Bool} {better : F → F → Bool} {f : F} :
    f ∈ (fs.filter viable).filter (isBest better (fs.filter viable)) ↔
    Best (· ∈ fs) viable better f := by
  simp only [List.mem_filter, isBest, List.all_eq_true, Bool.or_eq_true, decide_eq_true_eq, Best,
    and_assoc, and_imp]
  refine and_congr_right fun _ => and_congr_right fun _ => ?_
  constructor
  · intro h g hg hv hne
    exact (h g hg hv).resolve_left hne
  · intro h g hg hv
    by_cases hne : g = f
    · exact .inl hne
    · exact .inr (h g hg hv hne)

theorem resolve_outcome (fs : List F) (hnd : fs.Nodup) (viable : F → Bool) (better : F → F → Bool) :
    Outcome (· ∈ fs) viable better (resolve viable better fs) := by
  have hvnd : (fs.filter viable).Nodup := hnd.filter _
  have hbnd := hvnd.filter (isBest better (fs.filter viable))
  have hb := @mem_best F _ fs viable better
  have hvm : ∀ g, g ∈ fs.filter viable ↔ g ∈ fs ∧ viable g = true := fun g => List.mem_filter
  unfold resolve
  simp only
  generalize hvs : fs.filter viable = vs at *
  cases vs with
  | nil =>
    intro g hg
    cases hv : viable g
    · rfl
    · have := (hvm g).2 ⟨hg, hv⟩
      simp at this
  | cons a vs =>
    have hne : ∃ g, g ∈ fs ∧ viable g = true := ⟨a, (hvm a).1 (by simp)⟩
    simp only
    generalize hbs : (a :: vs).filter (isBest better (a :: vs)) = bs at *
    rcases bs with _ | ⟨f, _ | ⟨f', bs⟩⟩
    · refine ⟨hne, ?_⟩
      rintro ⟨f, hf, -⟩
      have := hb.2 hf
      simp at this
    · refine ⟨hb.1 (by simp), ?_⟩
      intro g hg
      simpa using hb.2 hg
    · refine ⟨hne, ?_⟩
      rintro ⟨x, -, hx⟩
      have h1 := hx f (hb.1 (by simp))
      have h2 := hx f' (hb.1 (by simp))
      have : f ≠ f' := by
        intro h; subst h
        simp at hbnd
      exact this (h1.trans h2.symm)

omit [DecidableEq F] in
theorem outcome_unique {cand : F → Prop} {viable : F → Bool} {better : F → F → Bool} {p q : Pick F}
    (hp : Outcome cand viable better p) (hq : Outcome cand viable better q) : p = q := by
  cases p <;> cases q <;> simp only [Outcome] at hp hq
  · rfl
  · obtain ⟨⟨g, hg, hv⟩, -⟩ := hq
    simp [hp g hg] at hv
  · have := hq.1.2.1
    simp [hp _ hq.1.1] at this
  · obtain ⟨⟨g, hg, hv⟩, -⟩ := hp
    simp [hq g hg] at hv
  · rfl
  · exact absurd ⟨_, hq⟩ hp.2
  · have := hp.1.2.1
    simp [hq _ hp.1.1] at this
  · exact absurd ⟨_, hp⟩ hq.2
  · rw [hq.2 _ hp.1]

/-- **C40.** What a call of `overload{f...}` selects is the outcome the specification gives for the *set* of
callables, and nothing else meets that specification. -/
theorem C40_selects_best (fs : List F) (hnd : fs.Nodup) (viable : F → Bool) (better : F → F → Bool)
    (p : Pick F) :
    callOverload fs viable better = p ↔ Outcome (· ∈ fs) viable better p := by
  constructor
  · rintro rfl; exact resolve_outcome fs hnd viable better
  · intro h; exact outcome_unique (resolve_outcome fs hnd viable better) h

omit [DecidableEq F] in
theorem outcome_congr {c1 c2 : F → Prop} (h : ∀ f, c1 f ↔ c2 f) {viable : F → Bool}
    {better : F → F → Bool} {p : Pick F} : Outcome c1 viable better p → Outcome c2 viable better p := by
  have : c1 = c2 := funext fun f => propext (h f)
  rw [this]; exact id

/-- **C40.** The selection does not depend on the order of the callables. -/
theorem C40_order_independent (fs gs : List F) (hnd : fs.Nodup) (hp : fs.Perm gs)
    (viable : F → Bool) (better : F → F → Bool) :
    callOverload fs viable better = callOverload gs viable better := by
  have h1 := resolve_outcome fs hnd viable better
  have h2 := resolve_outcome gs (hp.nodup_iff.1 hnd) viable better
  exact outcome_unique h1 (outcome_congr (fun f => (hp.mem_iff).symm) h2)

/-- **C40.** The MSVC variant selects the same. -/
theorem C40_msvc_same (isEmpty : F → Bool) (fs : List F) (hnd : fs.Nodup)
    (viable : F → Bool) (better : F → F → Bool) :
    callOverloadMsvc isEmpty fs viable better = callOverload fs viable better := by
  obtain ⟨_, _, _, hperm, _⟩ := TL.C38_stable_partition fs (TL.predicate isEmpty)
  exact C40_order_independent _ _ (hperm.nodup_iff.2 hnd) hperm viable better

/-- Three callables, the second best for this call; a fourth one makes it ambiguous. -/
example : callOverload ["any", "int", "long"] (fun _ => true) (fun f _ => f == "int") = .pick "int" ∧
    callOverload ["long", "any", "int"] (fun _ => true) (fun f _ => f == "int") = .pick "int" ∧
    callOverloadMsvc (· == "long") ["any", "int", "long"] (fun _ => true) (fun f _ => f == "int")
      = .pick "int" ∧
    callOverload ["any", "long"] (fun _ => true) (fun f _ => f == "int") = .ambiguous ∧
    callOverload ["any", "long"] (fun _ => false) (fun f _ => f == "int") = .noMatch := by
  decide

theorem getByType_mem (args : List (F × V)) (hnd : (args.map (·.1)).Nodup) (g : F) (v : V)
    (h : (g, v) ∈ args) : getByType args g = some v := by
  have : args.filter (fun a => decide (a.1 = g)) = [(g, v)] := by
    induction args with
    | nil => simp at h
    | cons a as ih =>
      simp only [List.map_cons, List.nodup_cons, List.mem_map, not_exists, not_and] at hnd
      rcases List.mem_cons.1 h with rfl | h
      · have : as.filter (fun a => decide (a.1 = g)) = [] := by
          rw [List.filter_eq_nil_iff]
          intro b hb
          simpa using hnd.1 b hb
        simp [this]
      · have hne : a.1 ≠ g := by
          intro he
          exact hnd.1 (g, v) h he.symm
        simp [hne, ih hnd.2 h]
  simp [getByType, this]

/-- **C40.** The MSVC constructor gives every base the argument of its own type: the bases with their
values are a permutation of the arguments, for pairwise distinct types. -/
theorem C40_msvc_construct (isEmpty : F → Bool) (args : List (F × V))
    (hnd : (args.map (·.1)).Nodup) :
    ∃ bases, constructMsvc isEmpty args = some bases ∧
      bases.map (·.1) = TL.partitionT isEmpty (args.map (·.1)) ∧ ∀ b, b ∈ bases ↔ b ∈ args := by
  obtain ⟨_, _, _, hperm, _⟩ := TL.C38_stable_partition (args.map (·.1)) (TL.predicate isEmpty)
  have key : ∀ gs : List F, (∀ g ∈ gs, g ∈ args.map (·.1)) →
      ∃ bases, (gs.mapM fun g => (getByType args g).map fun v => (g, v)) = some bases ∧
        bases.map (·.1) = gs ∧ ∀ b ∈ bases, b ∈ args := by
    intro gs
    induction gs with
    | nil => intro _; exact ⟨[], rfl, rfl, by simp⟩
    | cons g gs ih =>
      intro hg
      obtain ⟨bases, h1, h2, h3⟩ := ih fun x hx => hg x (by simp [hx])
      obtain ⟨⟨g', v⟩, hm, rfl⟩ := List.mem_map.1 (hg g (by simp))
      refine ⟨(g', v) :: bases, ?_, by simp [h2], ?_⟩
      · simp [List.mapM_cons, getByType_mem args hnd g' v hm, h1]
      · intro b hb
        rcases List.mem_cons.1 hb with rfl | hb
        · exact hm
        · exact h3 b hb
  obtain ⟨bases, h1, h2, h3⟩ := key (TL.partitionT isEmpty (args.map fun a : F × V => a.1))
    fun g hg => hperm.mem_iff.1 hg
  refine ⟨bases, h1, h2, fun b => ⟨h3 b, fun hb => ?_⟩⟩
  have : b.1 ∈ bases.map (·.1) := by
    rw [h2]; exact hperm.mem_iff.2 (List.mem_map.2 ⟨b, hb, rfl⟩)
  obtain ⟨b', hb', he⟩ := List.mem_map.1 this
  have e1 := getByType_mem args hnd b'.1 b'.2 (h3 b' hb')
  have e2 := getByType_mem args hnd b.1 b.2 hb
  rw [he, e2] at e1
  have : b' = b := Prod.ext he (Option.some.inj e1).symm
  exact this ▸ hb'

example : constructMsvc (· == "e") [("a", 1), ("e", 2), ("b", 3)] =
    some [("e", 2), ("a", 1), ("b", 3)] := by decide

end Pigro.Ovl
