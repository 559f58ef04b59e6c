import Verif.Spec.UncaptureMake
import Verif.Proofs.Bind
/-!
# Lemmas: objects in `uncaptured(v...) >> f`
-/
namespace Pigro.Unc.Mk
open Cxx
variable {B V L R : Type}

/-- Copies weighing `k` and moves weighing `n`; only objects in `X` are moved from, as far as they are old. -/
structure Step (w : V → Nat) (X : Nat → Prop) (m m' : Mem V L) (k n : Nat) : Prop where
  grows : Grows X m m'
  same : ∀ a < m.next, w (m'.get a) = w (m.get a)
  made : ∃ new, m'.inits = m.inits ++ new ∧ (∀ i ∈ new, i.dst < m'.next) ∧ ((new.filter fun i => !i.move).map fun i => w (m'.get i.dst)).sum = k ∧
    ((new.filter fun i => i.move).map fun i => w (m'.get i.dst)).sum = n

theorem Step.counted {w : V → Nat} {X : Nat → Prop} {m m' : Mem V L} {k n : Nat} (h : Step w X m m' k n) : Counted w m m' k n := by
  obtain ⟨new, h1, _, h2, h3⟩ := h.made
  exact ⟨new, h1, h2, h3⟩

theorem Step.refl (w : V → Nat) (X : Nat → Prop) (m : Mem V L) : Step w X m m 0 0 :=
  ⟨Grows.refl _ _, fun _ _ => rfl, [], by simp⟩

theorem Step.mono {w : V → Nat} {X Y : Nat → Prop} {m m' : Mem V L} {k n : Nat} (h : Step w X m m' k n) (hXY : ∀ a, X a → Y a) : Step w Y m m' k n :=
  ⟨h.grows.mono hXY, h.same, h.made⟩

theorem Step.cast {w : V → Nat} {X : Nat → Prop} {m m' : Mem V L} {k n k' n' : Nat} (h : Step w X m m' k n) (hk : k = k') (hn : n = n') : Step w X m m' k' n' := by
  subst hk hn; exact h

theorem Step.trans {w : V → Nat} {X Y : Nat → Prop} {m m1 m2 : Mem V L} {k n k' n' : Nat} (h : Step w X m m1 k n) (h' : Step w Y m1 m2 k' n') (hY : ∀ a, a < m.next → Y a → X a) :
    Step w X m m2 (k + k') (n + n') := by
  have n1 := h.grows.next
  have n2 := h'.grows.next
  refine ⟨⟨Nat.le_trans n1 n2, h'.grows.world.trans h.grows.world, ?_, ?_, ?_⟩, ?_, ?_⟩
  · intro a ha hX
    rw [h'.grows.frame a (by omega) (fun hy => hX (hY a ha hy)), h.grows.frame a ha hX]
  · intro a ha
    rw [h'.grows.aliveOld a (by omega), h.grows.aliveOld a ha]
  · intro a ha1 ha2
    by_cases hlt : a < m1.next
    · rw [h'.grows.aliveOld a hlt, h.grows.aliveNew a ha1 hlt]
    · exact h'.grows.aliveNew a (by omega) ha2
  · intro a ha
    rw [h'.same a (by omega), h.same a ha]
  · obtain ⟨l, h1, h2, h3, h4⟩ := h.made
    obtain ⟨l', h1', h2', h3', h4'⟩ := h'.made
    have old : ∀ p : Init → Bool, ((l.filter p).map fun i => w (m2.get i.dst)) = (l.filter p).map fun i => w (m1.get i.dst) := by
      intro p
      apply List.map_congr_left
      intro i hi
      exact h'.same _ (h2 i (List.mem_filter.1 hi).1)
    refine ⟨l ++ l', by rw [h1', h1, List.append_assoc], ?_, ?_, ?_⟩
    · intro i hi
      rcases List.mem_append.1 hi with hi | hi
      · have := h2 i hi; omega
      · exact h2' i hi
    · rw [List.filter_append, List.map_append, List.sum_append, old, h3, h3']
    · rw [List.filter_append, List.map_append, List.sum_append, old, h4, h4']

/-- Distinct new addresses. -/
def NewAt (m m' : Mem V L) (as : List Nat) : Prop := as.Nodup ∧ ∀ a ∈ as, m.next ≤ a ∧ a < m'.next

theorem NewAt.nil (m m' : Mem V L) : NewAt m m' [] := ⟨.nil, by simp⟩

theorem NewAt.mono {m0 m m' m1 : Mem V L} {as : List Nat} (h : NewAt m m' as) (h0 : m0.next ≤ m.next) (h1 : m'.next ≤ m1.next) : NewAt m0 m1 as :=
  ⟨h.1, fun a ha => by have := h.2 a ha; omega⟩

theorem NewAt.append {m m1 m2 : Mem V L} {as bs : List Nat} (h : NewAt m m1 as) (h' : NewAt m1 m2 bs) (h1 : m.next ≤ m1.next) (h2 : m1.next ≤ m2.next) : NewAt m m2 (as ++ bs) := by
  refine ⟨List.nodup_append.2 ⟨h.1, h'.1, ?_⟩, ?_⟩
  · intro a ha b hb hab
    have := h.2 a ha
    have := h'.2 b hb
    omega
  · intro a ha
    rcases List.mem_append.1 ha with ha | ha
    · have := h.2 a ha; omega
    · have := h'.2 a ha; omega

def uweight (w : V → Nat) (u : Uncaptured B V) : Nat := if u.isEmpty then 0 else w u.value

theorem UObj.view_frame (Λ : Lang B V) {X : Nat → Prop} {m m' : Mem V L} (h : Grows X m m') (u : UObj B) (hu : ∀ a ∈ u.addrs, a < m.next ∧ ¬ X a) : u.view Λ m' = u.view Λ m := by
  rcases u with ⟨ty, _ | a⟩
  · rfl
  · have := hu a (by simp [UObj.addrs])
    simp only [UObj.view, h.frame a this.1 this.2]

theorem CObj.view_frame (Λ : Lang B V) (code : B → Unc.Code V R V) {X : Nat → Prop} {m m' : Mem V L} (h : Grows X m m') : ∀ (f : CObj B), (∀ a ∈ f.addrs, a < m.next ∧ ¬ X a) →
    f.view Λ code m' = f.view Λ code m
  | .fn ty a, hf => by
    have := hf a (by simp [CObj.addrs])
    simp only [CObj.view, h.frame a this.1 this.2]
  | .ci tag u f, hf => by
    simp only [CObj.view]
    rw [UObj.view_frame Λ h u (fun a ha => hf a (by simp [CObj.addrs, ha])), CObj.view_frame Λ code h f (fun a ha => hf a (by simp [CObj.addrs, ha]))]

def cw : Cat → Nat → Nat
  | .lv, x => x
  | .xv, _ => 0

def mw : Cat → Nat → Nat
  | .lv, _ => 0
  | .xv, x => x

theorem cw_add (cat : Cat) (x y : Nat) : cw cat (x + y) = cw cat x + cw cat y := by cases cat <;> rfl
theorem mw_add (cat : Cat) (x y : Nat) : mw cat (x + y) = mw cat x + mw cat y := by cases cat <;> rfl

section
variable (Λ : Lang B V) (w : V → Nat) (hw : ∀ x, w (Λ.moved x) = w x)
include hw

theorem init_step (e : Expr B) (m : Mem V L) (he : e.addr < m.next) : Step w (Moves e) m (Λ.initFrom e m) (if copies e then w (m.get e.addr) else 0) (if copies e then 0 else w (m.get e.addr)) := by
  have hne : m.next ≠ e.addr := by omega
  refine ⟨(initFrom_grows Λ e m he).1, ?_, ?_⟩
  · intro a ha
    have h1 : a ≠ m.next := by omega
    rcases hcat : e.cat with _ | _ <;> rcases hc : e.c with _ | _ <;> simp only [Lang.initFrom, hcat, hc, Mem.alloc, Mem.write, h1, if_false]
    split
    · rename_i h; subst h; rw [hw]
    · rfl
  · refine ⟨[⟨!copies e, e.addr, m.next⟩], ?_, ?_, ?_, ?_⟩
    · rcases hcat : e.cat with _ | _ <;> rcases hc : e.c with _ | _ <;> simp [Lang.initFrom, copies, hcat, hc]
    · intro i hi
      simp only [List.mem_singleton] at hi
      subst hi
      have := (initFrom_grows Λ e m he).2.1
      simp only; omega
    all_goals
      have hv := (initFrom_grows Λ e m he).2.2
      rcases hcp : copies e <;> simp [hv]

theorem init_lv (ty : B) (a : Nat) (cat : Cat) (m : Mem V L) (ha : a < m.next) :
    Step w (fun b => cat = .xv ∧ b = a) m (Λ.initFrom (operand ty cat a) m) (cw cat (w (m.get a))) (mw cat (w (m.get a))) := by
  have h := init_step Λ w hw (operand ty cat a) m ha
  refine (h.mono fun b hb => ⟨hb.2.1, hb.1.symm⟩).cast ?_ ?_ <;> cases cat <;> rfl

theorem UObj.init_step (cat : Cat) (u : UObj B) (m : Mem V L) (hu : ∀ a ∈ u.addrs, a < m.next) :
    Step w (fun a => cat = .xv ∧ a ∈ u.addrs) m (u.init Λ cat m).2 (cw cat (uweight w (u.view Λ m))) (mw cat (uweight w (u.view Λ m))) ∧
    NewAt m (u.init Λ cat m).2 (u.init Λ cat m).1.addrs ∧ (u.init Λ cat m).1.view Λ (u.init Λ cat m).2 = u.view Λ m := by
  rcases u with ⟨ty, _ | a⟩
  · refine ⟨(Step.refl w _ m).cast ?_ ?_, NewAt.nil _ _, rfl⟩ <;> cases cat <;> rfl
  · have ha := hu a (by simp [UObj.addrs])
    have hg := initFrom_grows Λ (operand ty cat a) m ha
    refine ⟨(init_lv Λ w hw ty a cat m ha).mono fun b hb => ⟨hb.1, by simp [UObj.addrs, hb.2]⟩, ⟨by simp [UObj.init, UObj.addrs], ?_⟩, ?_⟩
    · intro b hb
      simp only [UObj.init, UObj.addrs, Option.toList_some, List.mem_singleton] at hb ⊢
      have := hg.2.1
      omega
    · simp only [UObj.init, UObj.view]
      rw [hg.2.2]; rfl

theorem CObj.init_step (code : B → Unc.Code V R V) (cat : Cat) : ∀ (f : CObj B) (m : Mem V L), (∀ a ∈ f.addrs, a < m.next) → (cat = .xv → f.addrs.Nodup) →
    Step w (fun a => cat = .xv ∧ a ∈ f.addrs) m (f.init Λ cat m).2 (cw cat (weight w (f.view Λ code m))) (mw cat (weight w (f.view Λ code m))) ∧
    NewAt m (f.init Λ cat m).2 (f.init Λ cat m).1.addrs ∧ (f.init Λ cat m).1.view Λ code (f.init Λ cat m).2 = f.view Λ code m ∧
    (f.init Λ cat m).1.uniqueTag = f.uniqueTag
  | .fn ty a, m, hf, _ => by
    have ha := hf a (by simp [CObj.addrs])
    have hg := initFrom_grows Λ (operand ty cat a) m ha
    refine ⟨(init_lv Λ w hw ty a cat m ha).mono fun b hb => ⟨hb.1, by simp [CObj.addrs, hb.2]⟩, ⟨by simp [CObj.init, CObj.addrs], ?_⟩, ?_, rfl⟩
    · intro b hb
      simp only [CObj.init, CObj.addrs, List.mem_singleton] at hb ⊢
      have := hg.2.1
      omega
    · simp only [CObj.init, CObj.view]
      rw [hg.2.2]; rfl
  | .ci tag u f, m, hf, hn => by
    obtain ⟨s1, n1, v1⟩ := UObj.init_step Λ w hw cat u m (fun a ha => hf a (by simp [CObj.addrs, ha]))
    have l1 := s1.grows.next
    obtain ⟨s2, n2, v2, _⟩ := CObj.init_step code cat f (u.init Λ cat m).2 (fun a ha => Nat.lt_of_lt_of_le (hf a (by simp [CObj.addrs, ha])) l1)
      (fun h => (List.nodup_append.1 (hn h)).2.1)
    have l2 := s2.grows.next
    have vf : f.view Λ code (u.init Λ cat m).2 = f.view Λ code m := by
      apply CObj.view_frame Λ code s1.grows
      intro a ha
      refine ⟨hf a (by simp [CObj.addrs, ha]), ?_⟩
      rintro ⟨hc, hu⟩
      exact (List.nodup_append.1 (hn hc)).2.2 a hu a ha rfl
    have vu : (u.init Λ cat m).1.view Λ (f.init Λ cat (u.init Λ cat m).2).2 = (u.init Λ cat m).1.view Λ (u.init Λ cat m).2 := by
      apply UObj.view_frame Λ s2.grows
      intro a ha
      have := n1.2 a ha
      refine ⟨this.2, ?_⟩
      rintro ⟨_, hf'⟩
      have := hf a (by simp [CObj.addrs, hf'])
      omega
    rw [vf] at s2
    refine ⟨?_, ?_, ?_, rfl⟩
    · refine ((s1.mono (Y := fun a => cat = .xv ∧ a ∈ (CObj.ci tag u f).addrs) fun a ha => ⟨ha.1, by simp [CObj.addrs, ha.2]⟩).trans s2 ?_).cast ?_ ?_
      · intro a _ ha
        exact ⟨ha.1, by simp [CObj.addrs, ha.2]⟩
      · simp only [CObj.view, weight, cw_add]; rfl
      · simp only [CObj.view, weight, mw_add]; rfl
    · exact n1.append n2 l1 l2
    · simp only [CObj.init, CObj.view]
      rw [vu, v1, v2, vf]

/-- The addresses of several. -/
def addrsAll (us : List (UObj B)) : List Nat := us.flatMap UObj.addrs

omit hw in
theorem views_frame {X : Nat → Prop} {m m' : Mem V L} (h : Grows X m m') (us : List (UObj B)) (hu : ∀ a ∈ addrsAll us, a < m.next ∧ ¬ X a) :
    us.map (UObj.view Λ m') = us.map (UObj.view Λ m) := by
  apply List.map_congr_left
  intro u hmem
  exact UObj.view_frame Λ h u fun a ha => hu a (List.mem_flatMap.2 ⟨u, hmem, ha⟩)

/-- Their values weigh together. -/
def uweights (us : List (Uncaptured B V)) : Nat := (us.map (uweight w)).sum

theorem initAll_step (cat : Cat) : ∀ (us : List (UObj B)) (m : Mem V L), (∀ a ∈ addrsAll us, a < m.next) → (cat = .xv → (addrsAll us).Nodup) →
    Step w (fun a => cat = .xv ∧ a ∈ addrsAll us) m (initAll Λ cat us m).2 (cw cat (uweights w (us.map (UObj.view Λ m)))) (mw cat (uweights w (us.map (UObj.view Λ m)))) ∧
    NewAt m (initAll Λ cat us m).2 (addrsAll (initAll Λ cat us m).1) ∧ (initAll Λ cat us m).1.map (UObj.view Λ (initAll Λ cat us m).2) = us.map (UObj.view Λ m)
  | [], m, _, _ => by
    refine ⟨(Step.refl w _ m).cast ?_ ?_, NewAt.nil _ _, rfl⟩ <;> cases cat <;> rfl
  | u :: us, m, hf, hn => by
    simp only [addrsAll, List.flatMap_cons] at hf hn
    obtain ⟨s1, n1, v1⟩ := UObj.init_step Λ w hw cat u m (fun a ha => hf a (by simp [ha]))
    have l1 := s1.grows.next
    obtain ⟨s2, n2, v2⟩ := initAll_step cat us (u.init Λ cat m).2 (fun a ha => Nat.lt_of_lt_of_le (hf a (List.mem_append.2 (.inr ha))) l1)
      (fun h => (List.nodup_append.1 (hn h)).2.1)
    have l2 := s2.grows.next
    have vf : us.map (UObj.view Λ (u.init Λ cat m).2) = us.map (UObj.view Λ m) := by
      apply views_frame Λ s1.grows
      intro a ha
      refine ⟨hf a (List.mem_append.2 (.inr ha)), ?_⟩
      rintro ⟨hc, hu⟩
      exact (List.nodup_append.1 (hn hc)).2.2 a hu a ha rfl
    have vu : (u.init Λ cat m).1.view Λ (initAll Λ cat us (u.init Λ cat m).2).2 = (u.init Λ cat m).1.view Λ (u.init Λ cat m).2 := by
      apply UObj.view_frame Λ s2.grows
      intro a ha
      have := n1.2 a ha
      refine ⟨this.2, ?_⟩
      rintro ⟨_, hf'⟩
      have := hf a (List.mem_append.2 (.inr hf'))
      omega
    rw [vf] at s2
    refine ⟨?_, ?_, ?_⟩
    · refine ((s1.mono (Y := fun a => cat = .xv ∧ a ∈ addrsAll (u :: us)) fun a ha => ⟨ha.1, by simp [addrsAll, ha.2]⟩).trans s2 ?_).cast ?_ ?_
      · intro a _ ha
        refine ⟨ha.1, ?_⟩
        simp only [addrsAll, List.flatMap_cons]
        exact List.mem_append.2 (.inr ha.2)
      · simp only [uweights, List.map_cons, List.sum_cons, cw_add]
      · simp only [uweights, List.map_cons, List.sum_cons, mw_add]
    · simp only [initAll, addrsAll, List.flatMap_cons]
      exact n1.append n2 l1 l2
    · simp only [initAll, List.map_cons]
      rw [vu, v1, v2, vf]

theorem make_step (e : Expr B) (m : Mem V L) (he : e.addr < m.next) :
    Step w (Moves e) m (make Λ e m).2 (if copies e then w (m.get e.addr) else 0) (if copies e then 0 else w (m.get e.addr)) ∧
    NewAt m (make Λ e m).2 (make Λ e m).1.addrs ∧ (make Λ e m).1.view Λ (make Λ e m).2 = argView Λ m e := by
  have hg := initFrom_grows Λ e m he
  refine ⟨init_step Λ w hw e m he, ?_, ?_⟩
  · by_cases hE : Λ.isEmpty e.base = true
    · simp only [make, UObj.addrs, hE, if_true, Option.toList_none]; exact NewAt.nil _ _
    · simp only [make, UObj.addrs, hE]
      refine ⟨by simp, ?_⟩
      intro b hb
      have := hg.2.1
      simp at hb
      omega
  · by_cases hE : Λ.isEmpty e.base = true
    · simp [make, UObj.view, argView, hE]
    · simp [make, UObj.view, argView, hE, hg.2.2]

theorem makeAll_step : ∀ (es : List (Expr B)) (m : Mem V L), (∀ e ∈ es, e.cat = .lv ∧ e.addr < m.next) →
    Step w (fun _ => False) m (makeAll Λ es m).2 ((es.map fun e => w (m.get e.addr)).sum) 0 ∧
    NewAt m (makeAll Λ es m).2 (addrsAll (makeAll Λ es m).1) ∧ (makeAll Λ es m).1.map (UObj.view Λ (makeAll Λ es m).2) = es.map (argView Λ m)
  | [], m, _ => ⟨Step.refl w _ m, NewAt.nil _ _, rfl⟩
  | e :: es, m, he => by
    obtain ⟨hlv, hlt⟩ := he e (by simp)
    obtain ⟨s1, n1, v1⟩ := make_step Λ w hw e m hlt
    have hc : copies e = true := by simp [copies, hlv]
    simp only [hc, if_true] at s1
    have s1' := s1.mono (Y := fun _ => False) fun a ha => by simp [Moves, hlv] at ha
    have l1 := s1.grows.next
    obtain ⟨s2, n2, v2⟩ := makeAll_step es (make Λ e m).2 (fun e' h' => ⟨(he e' (by simp [h'])).1, Nat.lt_of_lt_of_le (he e' (by simp [h'])).2 l1⟩)
    have l2 := s2.grows.next
    have hget : ∀ e' ∈ es, (make Λ e m).2.get e'.addr = m.get e'.addr := fun e' h' => s1'.grows.frame _ (he e' (by simp [h'])).2 id
    refine ⟨(s1'.trans s2 fun _ _ h => h).cast ?_ rfl, ?_, ?_⟩
    · simp only [List.map_cons, List.sum_cons]
      congr 2
      apply List.map_congr_left
      intro e' h'
      rw [hget e' h']
    · simp only [makeAll, addrsAll, List.flatMap_cons]
      exact n1.append n2 l1 l2
    · simp only [makeAll, List.map_cons]
      rw [v2, UObj.view_frame Λ s2.grows _ (fun a ha => ⟨(n1.2 a ha).2, id⟩), v1]
      congr 1
      apply List.map_congr_left
      intro e' h'
      simp only [argView, hget e' h']

theorem retag_step (u : UObj B) (m : Mem V L) (hu : ∀ a ∈ u.addrs, a < m.next) :
    Step w (fun _ => False) m (u.retag Λ m).2 (uweight w (u.view Λ m)) 0 ∧ NewAt m (u.retag Λ m).2 (u.retag Λ m).1.addrs ∧ (u.retag Λ m).1.view Λ (u.retag Λ m).2 = u.view Λ m := by
  rcases u with ⟨ty, _ | a⟩
  · refine ⟨⟨Grows.alloc _ _ _, ?_, [], by simp [UObj.retag, Mem.alloc, UObj.view, uweight]⟩, NewAt.nil _ _, rfl⟩
    intro a ha
    have : a ≠ m.next := by omega
    simp [UObj.retag, Mem.alloc, this]
  · obtain ⟨s, n, v⟩ := UObj.init_step Λ w hw .lv ⟨ty, some a⟩ m hu
    exact ⟨s.mono (by simp), n, v⟩

omit hw in
theorem uniqueTag_view (code : B → Unc.Code V R V) (m : Mem V L) : ∀ f : CObj B, (f.view Λ code m).uniqueTag = f.uniqueTag
  | .fn _ _ => rfl
  | .ci _ _ _ => rfl

theorem shift_step (code : B → Unc.Code V R V) (u : UObj B) (f : CObj B) (m : Mem V L) (hu : ∀ a ∈ u.addrs, a < m.next) (hf : ∀ a ∈ f.addrs, a < m.next) :
    Step w (fun _ => False) m (shift Λ u f m).2 (2 * uweight w (u.view Λ m) + 2 * weight w (f.view Λ code m)) 0 ∧
    NewAt m (shift Λ u f m).2 (shift Λ u f m).1.addrs ∧ (shift Λ u f m).1.view Λ code (shift Λ u f m).2 = Unc.shift (u.view Λ m) (f.view Λ code m) := by
  obtain ⟨s1, n1, v1⟩ := retag_step Λ w hw u m hu
  have l1 := s1.grows.next
  obtain ⟨s2, n2, v2, _⟩ := CObj.init_step Λ w hw code .lv f (u.retag Λ m).2 (fun a ha => Nat.lt_of_lt_of_le (hf a ha) l1) (by simp)
  have vf : f.view Λ code (u.retag Λ m).2 = f.view Λ code m := CObj.view_frame Λ code s1.grows f fun a ha => ⟨hf a ha, id⟩
  rw [vf] at s2 v2
  have l2 := s2.grows.next
  obtain ⟨s3, n3, v3⟩ := UObj.init_step Λ w hw .lv (u.retag Λ m).1 (f.init Λ .lv (u.retag Λ m).2).2 (fun a ha => Nat.lt_of_lt_of_le (n1.2 a ha).2 l2)
  have vu : (u.retag Λ m).1.view Λ (f.init Λ .lv (u.retag Λ m).2).2 = u.view Λ m := by
    rw [UObj.view_frame Λ s2.grows _ (fun a ha => ⟨(n1.2 a ha).2, by simp⟩), v1]
  rw [vu] at s3 v3
  have l3 := s3.grows.next
  generalize hU : (u.retag Λ m).1.init Λ .lv (f.init Λ .lv (u.retag Λ m).2).2 = U at s3 n3 v3 l3
  obtain ⟨s4, n4, v4, _⟩ := CObj.init_step Λ w hw code .lv (f.init Λ .lv (u.retag Λ m).2).1 U.2 (fun a ha => Nat.lt_of_lt_of_le (n2.2 a ha).2 l3) (by simp)
  have vf' : (f.init Λ .lv (u.retag Λ m).2).1.view Λ code U.2 = f.view Λ code m := by
    rw [CObj.view_frame Λ code s3.grows _ (fun a ha => ⟨(n2.2 a ha).2, by simp⟩), v2]
  rw [vf'] at s4 v4
  have l4 := s4.grows.next
  have hs : shift Λ u f m = (.ci (f.uniqueTag + 1) U.1 ((f.init Λ .lv (u.retag Λ m).2).1.init Λ .lv U.2).1, ((f.init Λ .lv (u.retag Λ m).2).1.init Λ .lv U.2).2) := by
    rw [← hU]; rfl
  generalize (f.init Λ .lv (u.retag Λ m).2).1.init Λ .lv U.2 = F at s4 n4 v4 l4 hs
  rw [hs]
  refine ⟨?_, ?_, ?_⟩
  · refine (((s1.trans s2 (by simp)).trans s3 (by simp)).trans s4 (by simp)).cast ?_ ?_
    · simp only [cw]; omega
    · rfl
  · have := n3.append n4 l3 l4
    exact this.mono (Nat.le_trans l1 l2) (Nat.le_refl _)
  · simp only [CObj.view, Unc.shift]
    rw [UObj.view_frame Λ s4.grows _ (fun a ha => ⟨(n3.2 a ha).2, by simp⟩), v3, v4, uniqueTag_view]

omit hw in
theorem weight_shiftAll (f : Cal B V R V) : ∀ us : List (Uncaptured B V), weight w (shiftAll us f) = uweights w us + weight w f
  | [] => by simp [shiftAll, uweights]
  | u :: us => by
    simp only [shiftAll, Unc.shift, weight, weight_shiftAll f us, uweights, List.map_cons, List.sum_cons, uweight]
    omega

/-- Copies made by the fold over values weighing `us`, and a callable weighing `c`. -/
def fcost (c : Nat) : List Nat → Nat
  | [] => 0
  | [u] => 3 * u + 3 * c
  | u :: us => 3 * u + fcost c us + 2 * (us.sum + c)

theorem fold_step (code : B → Unc.Code V R V) (f : CObj B) (hn : f.addrs.Nodup) : ∀ (us : List (UObj B)) (m : Mem V L), (∀ a ∈ addrsAll us, a < m.next) → (∀ a ∈ f.addrs, a < m.next) →
    Step w (· ∈ f.addrs) m (fold Λ us f m).2 (fcost (weight w (f.view Λ code m)) ((us.map (UObj.view Λ m)).map (uweight w))) (if us = [] then weight w (f.view Λ code m) else 0) ∧
    NewAt m (fold Λ us f m).2 (fold Λ us f m).1.addrs ∧ (fold Λ us f m).1.view Λ code (fold Λ us f m).2 = shiftAll (us.map (UObj.view Λ m)) (f.view Λ code m)
  | [], m, _, hf => by
    obtain ⟨s, n, v, _⟩ := CObj.init_step Λ w hw code .xv f m hf (fun _ => hn)
    exact ⟨s.mono fun a ha => ha.2, n, v⟩
  | [u], m, hu, hf => by
    simp only [addrsAll, List.flatMap_cons, List.flatMap_nil, List.append_nil] at hu
    obtain ⟨s1, n1, v1⟩ := UObj.init_step Λ w hw .lv u m hu
    have l1 := s1.grows.next
    obtain ⟨s2, n2, v2, _⟩ := CObj.init_step Λ w hw code .lv f (u.init Λ .lv m).2 (fun a ha => Nat.lt_of_lt_of_le (hf a ha) l1) (by simp)
    have vf : f.view Λ code (u.init Λ .lv m).2 = f.view Λ code m := CObj.view_frame Λ code s1.grows f fun a ha => ⟨hf a ha, by simp⟩
    rw [vf] at s2 v2
    have l2 := s2.grows.next
    obtain ⟨s3, n3, v3⟩ := shift_step Λ w hw code (u.init Λ .lv m).1 (f.init Λ .lv (u.init Λ .lv m).2).1 (f.init Λ .lv (u.init Λ .lv m).2).2
      (fun a ha => Nat.lt_of_lt_of_le (n1.2 a ha).2 l2) (fun a ha => (n2.2 a ha).2)
    rw [UObj.view_frame Λ s2.grows _ (fun a ha => ⟨(n1.2 a ha).2, by simp⟩), v1, v2] at s3 v3
    refine ⟨?_, ?_, ?_⟩
    · refine (((s1.trans s2 (by simp)).trans s3 (by simp)).mono (by simp)).cast ?_ ?_
      · simp only [cw, List.map_cons, List.map_nil, fcost]; omega
      · simp [mw]
    · exact n3.mono (Nat.le_trans l1 l2) (Nat.le_refl _)
    · exact v3
  | u :: u' :: us, m, hu, hf => by
    rw [addrsAll, List.flatMap_cons] at hu
    obtain ⟨s1, n1, v1⟩ := UObj.init_step Λ w hw .lv u m (fun a ha => hu a (List.mem_append.2 (.inl ha)))
    have l1 := s1.grows.next
    obtain ⟨s2, n2, v2⟩ := fold_step code f hn (u' :: us) (u.init Λ .lv m).2 (fun a ha => Nat.lt_of_lt_of_le (hu a (List.mem_append.2 (.inr ha))) l1)
      (fun a ha => Nat.lt_of_lt_of_le (hf a ha) l1)
    have vf : f.view Λ code (u.init Λ .lv m).2 = f.view Λ code m := CObj.view_frame Λ code s1.grows f fun a ha => ⟨hf a ha, by simp⟩
    have vs : (u' :: us).map (UObj.view Λ (u.init Λ .lv m).2) = (u' :: us).map (UObj.view Λ m) :=
      views_frame Λ s1.grows _ fun a ha => ⟨hu a (List.mem_append.2 (.inr ha)), by simp⟩
    rw [vf, vs] at s2 v2
    have l2 := s2.grows.next
    obtain ⟨s3, n3, v3⟩ := shift_step Λ w hw code (u.init Λ .lv m).1 (fold Λ (u' :: us) f (u.init Λ .lv m).2).1 (fold Λ (u' :: us) f (u.init Λ .lv m).2).2
      (fun a ha => Nat.lt_of_lt_of_le (n1.2 a ha).2 l2) (fun a ha => (n2.2 a ha).2)
    have vu : (u.init Λ .lv m).1.view Λ (fold Λ (u' :: us) f (u.init Λ .lv m).2).2 = u.view Λ m := by
      rw [UObj.view_frame Λ s2.grows _ (fun a ha => ⟨(n1.2 a ha).2, fun h => ?_⟩), v1]
      have := (n1.2 a ha).1
      have := hf a h
      omega
    rw [vu, v2] at s3 v3
    refine ⟨?_, ?_, ?_⟩
    · refine (((s1.mono (Y := (· ∈ f.addrs)) (by simp)).trans s2 (fun _ _ h => h)).trans s3 (by simp)).cast ?_ ?_
      · rw [weight_shiftAll]
        simp only [cw, uweights, List.map_cons, fcost, List.sum_cons]; omega
      · simp [mw]
    · exact n3.mono (Nat.le_trans l1 l2) (Nat.le_refl _)
    · exact v3

theorem shiftMany_step (code : B → Unc.Code V R V) (us : List (UObj B)) (f : CObj B) (m : Mem V L) (hu : ∀ a ∈ addrsAll us, a < m.next) (hf : ∀ a ∈ f.addrs, a < m.next) :
    Step w (fun _ => False) m (shiftMany Λ us f m).2
      (weight w (f.view Λ code m) + uweights w (us.map (UObj.view Λ m)) + fcost (weight w (f.view Λ code m)) ((us.map (UObj.view Λ m)).map (uweight w)))
      (2 * weight w (f.view Λ code m) + uweights w (us.map (UObj.view Λ m)) + if us = [] then weight w (f.view Λ code m) else 0) ∧
    NewAt m (shiftMany Λ us f m).2 (shiftMany Λ us f m).1.addrs ∧
    (shiftMany Λ us f m).1.view Λ code (shiftMany Λ us f m).2 = shiftAll (us.map (UObj.view Λ m)) (f.view Λ code m) := by
  obtain ⟨s1, n1, v1, _⟩ := CObj.init_step Λ w hw code .lv f m hf (by simp)
  have l1 := s1.grows.next
  have vus1 : us.map (UObj.view Λ (f.init Λ .lv m).2) = us.map (UObj.view Λ m) := views_frame Λ s1.grows _ fun a ha => ⟨hu a ha, by simp⟩
  have hd : shiftMany Λ us f m = (let f1 := f.init Λ .lv m
    let f2 := f1.1.init Λ .xv f1.2
    let us2 := initAll Λ .lv us f2.2
    let f3 := f2.1.init Λ .xv us2.2
    let us3 := initAll Λ .xv us2.1 f3.2
    fold Λ us3.1 f3.1 us3.2) := rfl
  simp only at hd
  generalize f.init Λ .lv m = f1 at s1 n1 v1 l1 vus1 hd
  obtain ⟨s2, n2, v2, _⟩ := CObj.init_step Λ w hw code .xv f1.1 f1.2 (fun a ha => (n1.2 a ha).2) (fun _ => n1.1)
  rw [v1] at s2 v2
  have l2 := s2.grows.next
  have vus2 : us.map (UObj.view Λ (f1.1.init Λ .xv f1.2).2) = us.map (UObj.view Λ m) := by
    rw [views_frame Λ s2.grows _ fun a ha => ⟨Nat.lt_of_lt_of_le (hu a ha) l1, fun h => ?_⟩, vus1]
    have := hu a ha
    have := (n1.2 a h.2).1
    omega
  generalize f1.1.init Λ .xv f1.2 = f2 at s2 n2 v2 l2 vus2 hd
  obtain ⟨s3, n3, v3⟩ := initAll_step Λ w hw .lv us f2.2 (fun a ha => by have := hu a ha; omega) (by simp)
  rw [vus2] at s3 v3
  have l3 := s3.grows.next
  have vf3 : f2.1.view Λ code (initAll Λ .lv us f2.2).2 = f.view Λ code m := by
    rw [CObj.view_frame Λ code s3.grows _ (fun a ha => ⟨(n2.2 a ha).2, by simp⟩), v2]
  generalize hus2 : initAll Λ .lv us f2.2 = us2 at s3 n3 v3 l3 vf3 hd
  obtain ⟨s4, n4, v4, _⟩ := CObj.init_step Λ w hw code .xv f2.1 us2.2 (fun a ha => Nat.lt_of_lt_of_le (n2.2 a ha).2 l3) (fun _ => n2.1)
  rw [vf3] at s4 v4
  have l4 := s4.grows.next
  have vus4 : us2.1.map (UObj.view Λ (f2.1.init Λ .xv us2.2).2) = us.map (UObj.view Λ m) := by
    rw [views_frame Λ s4.grows _ fun a ha => ⟨(n3.2 a ha).2, fun h => ?_⟩, v3]
    have := (n3.2 a ha).1
    have := (n2.2 a h.2).2
    omega
  generalize f2.1.init Λ .xv us2.2 = f3 at s4 n4 v4 l4 vus4 hd
  obtain ⟨s5, n5, v5⟩ := initAll_step Λ w hw .xv us2.1 f3.2 (fun a ha => Nat.lt_of_lt_of_le (n3.2 a ha).2 l4) (fun _ => n3.1)
  rw [vus4] at s5 v5
  have l5 := s5.grows.next
  have vf5 : f3.1.view Λ code (initAll Λ .xv us2.1 f3.2).2 = f.view Λ code m := by
    rw [CObj.view_frame Λ code s5.grows _ (fun a ha => ⟨(n4.2 a ha).2, fun h => ?_⟩), v4]
    have := (n3.2 a h.2).2
    have := (n4.2 a ha).1
    omega
  generalize hus3 : initAll Λ .xv us2.1 f3.2 = us3 at s5 n5 v5 l5 vf5 hd
  obtain ⟨s6, n6, v6⟩ := fold_step Λ w hw code f3.1 n4.1 us3.1 us3.2 (fun a ha => (n5.2 a ha).2) (fun a ha => Nat.lt_of_lt_of_le (n4.2 a ha).2 l5)
  rw [vf5, v5] at s6 v6
  have l6 := s6.grows.next
  have hnil : us3.1 = [] ↔ us = [] := by
    have := congrArg List.length v5
    simp only [List.length_map] at this
    rw [← List.length_eq_zero_iff, ← List.length_eq_zero_iff, this]
  simp only [hnil] at s6
  rw [hd]
  refine ⟨?_, ?_, v6⟩
  · have t1 := s1.mono (Y := fun _ => False) (by simp)
    have t2 := t1.trans s2 fun a ha h => by have := (n1.2 a h.2).1; omega
    have t3 := t2.trans s3 (by simp)
    have t4 := t3.trans s4 fun a ha h => by have := (n2.2 a h.2).1; omega
    have t5 := t4.trans s5 fun a ha h => by have := (n3.2 a h.2).1; omega
    have t6 := t5.trans s6 fun a ha h => by have := (n4.2 a h).1; omega
    refine t6.cast ?_ ?_
    · simp only [cw]; omega
    · simp only [mw]; omega
  · exact n6.mono (by omega) (Nat.le_refl _)

theorem decayAll_step : ∀ (es : List (Expr B)) (m : Mem V L), (∀ e ∈ es, e.addr < m.next) → Apart es →
    Step w (fun a => ∃ e ∈ es, Moves e a) m (decayAll Λ es m).2 ((es.map fun e => if copies e then w (m.get e.addr) else 0).sum) ((es.map fun e => if copies e then 0 else w (m.get e.addr)).sum) ∧
    NewAt m (decayAll Λ es m).2 ((decayAll Λ es m).1.map Expr.addr) ∧ denoted (decayAll Λ es m).2 (decayAll Λ es m).1 = denoted m es
  | [], m, _, _ => ⟨Step.refl w _ m, NewAt.nil _ _, rfl⟩
  | e :: es, m, hlt, hx => by
    rw [Apart, List.pairwise_cons] at hx
    have he := hlt e (by simp)
    have s1 := init_step Λ w hw e m he
    obtain ⟨g1, n1, v1⟩ := initFrom_grows Λ e m he
    obtain ⟨s2, n2, v2⟩ := decayAll_step es (Λ.initFrom e m) (fun e' h' => by have := hlt e' (by simp [h']); omega) hx.2
    have l2 := s2.grows.next
    have hget : ∀ e' ∈ es, (Λ.initFrom e m).get e'.addr = m.get e'.addr := by
      intro e' h'
      apply g1.frame _ (hlt e' (by simp [h']))
      intro hm
      exact hx.1 e' h' (.inl hm.2.1) hm.1
    have h1 : ∀ (p : Expr B → Nat → Nat), (es.map fun e' => p e' (w ((Λ.initFrom e m).get e'.addr))) = es.map fun e' => p e' (w (m.get e'.addr)) := by
      intro p
      apply List.map_congr_left
      intro e' h'
      rw [hget e' h']
    rw [h1 (fun e' x => if copies e' then x else 0), h1 (fun e' x => if copies e' then 0 else x)] at s2
    refine ⟨?_, ?_, ?_⟩
    · refine ((s1.mono (Y := fun a => ∃ e' ∈ e :: es, Moves e' a) fun a ha => ⟨e, by simp, ha⟩).trans s2 ?_).cast ?_ ?_
      · rintro a _ ⟨e', h', hm⟩
        exact ⟨e', by simp [h'], hm⟩
      · simp only [List.map_cons, List.sum_cons]
      · simp only [List.map_cons, List.sum_cons]
    · have : NewAt m (Λ.initFrom e m) [m.next] := ⟨by simp, fun a ha => by simp at ha; omega⟩
      exact this.append n2 (by omega) l2
    · simp only [decayAll, decayCopy, denoted, List.map_cons] at v2 ⊢
      have h3 : (decayAll Λ es (Λ.initFrom e m)).2.get m.next = m.get e.addr := by
        rw [s2.grows.frame _ (by omega), v1]
        rintro ⟨e', h', hm⟩
        have := hlt e' (by simp [h'])
        have := hm.1
        omega
      rw [h3, v2]
      congr 1
      apply List.map_congr_left
      intro e' h'
      rw [hget e' h']

omit hw in
theorem argView_denoted (m : Mem V L) (es : List (Expr B)) : es.map (argView Λ m) =
    (denoted m es).map fun p => if Λ.isEmpty p.1 then ⟨p.1, true, Λ.emptyVal p.1⟩ else ⟨p.1, false, p.2⟩ := by
  simp only [denoted, List.map_map]; rfl

omit hw in
theorem weights_denoted (m : Mem V L) (es : List (Expr B)) : (es.map fun e => w (m.get e.addr)) = (denoted m es).map fun p => w p.2 := by
  simp only [denoted, List.map_map]; rfl

omit hw in
theorem denoted_named (m : Mem V L) (es : List (Expr B)) : denoted m (es.map Expr.named) = denoted m es := by
  simp only [denoted, List.map_map]; rfl

theorem many_step (es : List (Expr B)) (m : Mem V L) (hlt : ∀ e ∈ es, e.addr < m.next) (hx : Apart es) :
    Step w (fun a => ∃ e ∈ es, Moves e a) m (many Λ es m).2
      ((es.map fun e => if copies e then w (m.get e.addr) else 0).sum + (es.map fun e => w (m.get e.addr)).sum)
      ((es.map fun e => if copies e then 0 else w (m.get e.addr)).sum + uweights w (es.map (argView Λ m))) ∧
    NewAt m (many Λ es m).2 (addrsAll (many Λ es m).1) ∧ (many Λ es m).1.map (UObj.view Λ (many Λ es m).2) = es.map (argView Λ m) := by
  obtain ⟨s1, n1, v1⟩ := decayAll_step Λ w hw es m hlt hx
  have l1 := s1.grows.next
  have hd : many Λ es m = (let ps := decayAll Λ es m
    let us := makeAll Λ (ps.1.map Expr.named) ps.2
    initAll Λ .xv us.1 us.2) := rfl
  simp only at hd
  generalize decayAll Λ es m = ps at s1 n1 v1 l1 hd
  obtain ⟨s2, n2, v2⟩ := makeAll_step Λ w hw (ps.1.map Expr.named) ps.2 (by
    intro e he
    obtain ⟨e', h', rfl⟩ := List.mem_map.1 he
    exact ⟨rfl, (n1.2 e'.addr (List.mem_map.2 ⟨e', h', rfl⟩)).2⟩)
  rw [weights_denoted, denoted_named, v1, ← weights_denoted] at s2
  rw [argView_denoted, denoted_named, v1, ← argView_denoted] at v2
  have l2 := s2.grows.next
  generalize makeAll Λ (ps.1.map Expr.named) ps.2 = us at s2 n2 v2 l2 hd
  obtain ⟨s3, n3, v3⟩ := initAll_step Λ w hw .xv us.1 us.2 (fun a ha => (n2.2 a ha).2) (fun _ => n2.1)
  rw [v2] at s3 v3
  have l3 := s3.grows.next
  rw [hd]
  refine ⟨?_, n3.mono (by omega) (Nat.le_refl _), v3⟩
  refine ((s1.trans s2 (by simp)).trans s3 fun a ha h => by have := (n2.2 a h.2).1; omega).cast ?_ ?_
  · simp only [cw]; omega
  · simp only [mw]; omega

theorem one_step (e : Expr B) (m : Mem V L) (he : e.addr < m.next) :
    Step w (Moves e) m (one Λ e m).2 ((if copies e then w (m.get e.addr) else 0) + w (m.get e.addr)) (if copies e then 0 else w (m.get e.addr)) ∧
    NewAt m (one Λ e m).2 (one Λ e m).1.addrs ∧ (one Λ e m).1.view Λ (one Λ e m).2 = argView Λ m e := by
  have s1 := init_step Λ w hw e m he
  obtain ⟨g1, n1, v1⟩ := initFrom_grows Λ e m he
  obtain ⟨s2, n2, v2⟩ := make_step Λ w hw (decayCopy Λ e m).1.named (decayCopy Λ e m).2 (by show m.next < (Λ.initFrom e m).next; omega)
  have h1 : (decayCopy Λ e m).2.get (decayCopy Λ e m).1.named.addr = m.get e.addr := v1
  have h2 : argView Λ (decayCopy Λ e m).2 (decayCopy Λ e m).1.named = argView Λ m e := by
    simp only [argView, h1]; rfl
  have h3 : copies (decayCopy Λ e m).1.named = true := rfl
  rw [h2] at v2
  simp only [h1, h3, if_true] at s2
  refine ⟨?_, n2.mono (by show m.next ≤ (Λ.initFrom e m).next; omega) (Nat.le_refl _), v2⟩
  exact s1.trans s2 fun a _ h => by simp [Moves, Expr.named] at h

theorem param_step (code : B → Unc.Code V R V) (how : Option Cat) (f : CObj B) (m : Mem V L) (hf : ∀ a ∈ f.addrs, a < m.next) (hn : how = some .xv → f.addrs.Nodup) :
    Step w (fun a => how = some .xv ∧ a ∈ f.addrs) m (param Λ how f m).2 (paramCopies how * weight w (f.view Λ code m)) (paramMoves how * weight w (f.view Λ code m)) ∧
    (∀ a ∈ (param Λ how f m).1.addrs, a < (param Λ how f m).2.next) ∧ (param Λ how f m).1.view Λ code (param Λ how f m).2 = f.view Λ code m := by
  rcases how with _ | cat
  · exact ⟨(Step.refl w _ m).cast (by simp [paramCopies]) (by simp [paramMoves]), hf, rfl⟩
  · obtain ⟨s, n, v, _⟩ := CObj.init_step Λ w hw code cat f m hf (by intro h; exact hn (by rw [h]))
    refine ⟨(s.mono fun a ha => ⟨by rw [ha.1], ha.2⟩).cast ?_ ?_, fun a ha => (n.2 a ha).2, v⟩ <;> cases cat <;> simp [cw, mw, paramCopies, paramMoves]

end

/-! Closed forms -/

/-- Copies of the values by the fold, the `i`-th first. -/
def vcost : Nat → List Nat → Nat
  | _, [] => 0
  | i, u :: us => (3 + 2 * i) * u + vcost (i + 1) us

theorem vcost_succ : ∀ (us : List Nat) (i : Nat), vcost (i + 1) us = vcost i us + 2 * us.sum
  | [], _ => rfl
  | u :: us, i => by
    simp only [vcost, vcost_succ us (i + 1), List.sum_cons]
    have : (3 + 2 * (i + 1)) * u = (3 + 2 * i) * u + 2 * u := by rw [← Nat.add_mul]; congr 1
    omega

theorem fcost_eq (c : Nat) : ∀ us : List Nat, us ≠ [] → fcost c us = vcost 0 us + (2 * us.length + 1) * c
  | [], h => absurd rfl h
  | [u], _ => by simp only [fcost, vcost, List.length_singleton]; omega
  | u :: u' :: us, _ => by
    have ih := fcost_eq c (u' :: us) (by simp)
    have h := vcost_succ (u' :: us) 0
    have e : (2 * (u :: u' :: us).length + 1) * c = (2 * (u' :: us).length + 1) * c + 2 * c := by
      rw [← Nat.add_mul]; congr 1
    have e1 : fcost c (u :: u' :: us) = 3 * u + fcost c (u' :: us) + 2 * ((u' :: us).sum + c) := rfl
    have e2 : vcost 0 (u :: u' :: us) = (3 + 2 * 0) * u + vcost (0 + 1) (u' :: us) := rfl
    rw [e1, ih, e, e2, h]
    omega

theorem valueCopies_eq (Λ : Lang B V) (w : V → Nat) (m : Mem V L) : ∀ (es : List (Expr B)) (i : Nat),
    valueCopies Λ w m i es = (es.map fun e => if copies e then w (m.get e.addr) else 0).sum + (es.map fun e => w (m.get e.addr)).sum +
      uweights w (es.map (argView Λ m)) + vcost i ((es.map (argView Λ m)).map (uweight w))
  | [], _ => rfl
  | e :: es, i => by
    simp only [valueCopies, valueCopies_eq Λ w m es (i + 1), List.map_cons, List.sum_cons, uweights, vcost]
    by_cases hE : Λ.isEmpty e.base = true
    · simp only [hE, if_true, argView, uweight, Nat.mul_zero, Nat.one_mul]; omega
    · have : (5 + 2 * i) * w (m.get e.addr) = (3 + 2 * i) * w (m.get e.addr) + 2 * w (m.get e.addr) := by rw [← Nat.add_mul]; congr 1; omega
      simp only [hE, if_false, argView, uweight, this, Bool.false_eq_true]; omega

theorem valueMoves_eq (Λ : Lang B V) (w : V → Nat) (m : Mem V L) : ∀ (es : List (Expr B)),
    valueMoves Λ w m es = (es.map fun e => if copies e then 0 else w (m.get e.addr)).sum + 2 * uweights w (es.map (argView Λ m))
  | [] => rfl
  | e :: es => by
    simp only [valueMoves, valueMoves_eq Λ w m es, List.map_cons, List.sum_cons, uweights]
    by_cases hE : Λ.isEmpty e.base = true
    · simp only [hE, if_true, argView, uweight]; omega
    · simp only [hE, if_false, argView, uweight, Bool.false_eq_true]; omega


theorem call_passes (Λ : Lang B V) (ucode : B → Unc.Code V R V) (code : Cxx.Code B V L R) (c : Bool) : ∀ (f : CObj B) (args : List (Expr B)) (m : Mem V L), (∀ a ∈ f.addrs, a < m.next) →
    ∃ callee vals m1, Grows (fun _ => False) m m1 ∧ m1.inits = m.inits ∧ callee.c = c ∧ callee.cat = .lv ∧ some (m1.get callee.addr) = ownState (f.view Λ ucode m) ∧
      denoted m1 vals = stored (f.view Λ ucode m) ∧ (∀ v ∈ vals, if v.addr < m.next then v.addr ∈ f.addrs ∧ v.c = c ∧ v.cat = .lv else v.c = false ∧ v.cat = .xv) ∧
      (∀ a, (f.call Λ code c args m).2.alive a = ((code callee (args ++ vals) m1).2.alive a && !(decide (m.next ≤ a) && decide (a < m1.next)))) ∧
      (f.call Λ code c args m).1 = (code callee (args ++ vals) m1).1 ∧
      (f.call Λ code c args m).2.inits = (code callee (args ++ vals) m1).2.inits ∧ (f.call Λ code c args m).2.get = (code callee (args ++ vals) m1).2.get ∧
      (f.call Λ code c args m).2.world = (code callee (args ++ vals) m1).2.world
  | .fn ty a, args, m, _ => ⟨⟨ty, c, false, .lv, a⟩, [], m, Grows.refl _ _, rfl, rfl, rfl, rfl, rfl, by simp, fun b => by
      have : (decide (m.next ≤ b) && decide (b < m.next)) = false := by rcases Nat.lt_or_ge b m.next with h | h <;> simp <;> omega
      simp [CObj.call, this], by simp [CObj.call]⟩
  | .ci tag ⟨ty, some a⟩ f, args, m, hf => by
    obtain ⟨callee, vals, m1, h1, h2, h3, h3', h4, h5, h5', h5'', h6⟩ := call_passes Λ ucode code c f (args ++ [⟨ty, c, false, .lv, a⟩]) m (fun a ha => hf a (by simp [CObj.addrs, ha]))
    have ha := hf a (by simp [CObj.addrs, UObj.addrs])
    refine ⟨callee, ⟨ty, c, false, .lv, a⟩ :: vals, m1, h1, h2, h3, h3', h4, ?_, ?_, ?_, ?_⟩
    · simp only [denoted, List.map_cons, CObj.view, stored, UObj.view] at h5 ⊢
      rw [h5, h1.frame a ha id]
    · intro v hv
      rcases List.mem_cons.1 hv with rfl | hv
      · simp [ha, CObj.addrs, UObj.addrs]
      · have := h5' v hv
        split
        · rename_i hlt
          simp only [hlt, if_true] at this
          exact ⟨by simp [CObj.addrs, this.1], this.2⟩
        · rename_i hlt
          simpa only [hlt, if_false] using this
    · rw [List.append_assoc] at h5''
      exact h5''
    · rw [List.append_assoc] at h6
      exact h6
  | .ci tag ⟨ty, none⟩ f, args, m, hf => by
    have hg := Grows.alloc (fun _ => False) m (Λ.emptyVal ty)
    obtain ⟨callee, vals, m1, h1, h2, h3, h3', h4, h5, h5', h5'', h6⟩ := call_passes Λ ucode code c f (args ++ [operand ty .xv m.next]) (m.alloc (Λ.emptyVal ty))
      (fun a ha => Nat.lt_of_lt_of_le (hf a (by simp [CObj.addrs, ha])) hg.next)
    have hv : f.view Λ ucode (m.alloc (Λ.emptyVal ty)) = f.view Λ ucode m := CObj.view_frame Λ ucode hg f fun a ha => ⟨hf a (by simp [CObj.addrs, ha]), id⟩
    have hn : (m.alloc (Λ.emptyVal ty)).next = m.next + 1 := rfl
    have hn1 := h1.next
    rw [hv] at h4 h5
    refine ⟨callee, operand ty .xv m.next :: vals, m1, hg.trans h1, h2, h3, h3', h4, ?_, ?_, ?_, ?_⟩
    · simp only [denoted, List.map_cons, CObj.view, stored, UObj.view] at h5 ⊢
      rw [h5, operand, h1.frame m.next (by simp [Mem.alloc]) id]
      simp [Mem.alloc]
    · intro v hv
      rcases List.mem_cons.1 hv with rfl | hv
      · simp [operand]
      · have := h5' v hv
        split
        · rename_i hlt
          have hlt' : v.addr < (m.alloc (Λ.emptyVal ty)).next := by omega
          simp only [hlt', if_true] at this
          exact ⟨by simp [CObj.addrs, this.1], this.2⟩
        · rename_i hlt
          by_cases hlt' : v.addr < (m.alloc (Λ.emptyVal ty)).next
          · simp only [hlt', if_true] at this
            exact absurd (hf _ (by simp [CObj.addrs, this.1])) hlt
          · simpa only [hlt', if_false] using this
    · intro b
      rw [List.append_assoc] at h5''
      have h := h5'' b
      have hd : ((CObj.ci tag ⟨ty, none⟩ f).call Λ code c args m).2.alive b =
          ((f.call Λ code c (args ++ [operand ty .xv m.next]) (m.alloc (Λ.emptyVal ty))).2.alive b && !decide (b = m.next)) := rfl
      rw [hd, h, hn]
      have e : (!(decide (m.next + 1 ≤ b) && decide (b < m1.next)) && !decide (b = m.next)) = !(decide (m.next ≤ b) && decide (b < m1.next)) := by
        rw [Bool.eq_iff_iff]
        simp
        omega
      rw [Bool.and_assoc, e]
      rfl
    · rw [List.append_assoc] at h6
      exact h6

end Pigro.Unc.Mk
