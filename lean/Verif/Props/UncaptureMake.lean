import Verif.Proofs.UncaptureMake
/-!
# C90: what `uncaptured(v...) >> f` copies

`uncaptured(v...) >> f` makes the callable it should, without using an object it has moved from, but copies values and `f` many times: with `n ≥ 2` values, the `i`-th (from 0) `5 + 2 * i` times and `f`
`2 * n + 2` times. A call copies nothing.
-/
namespace Pigro.Unc.Mk
open Cxx
variable {B V L R : Type}

section
variable (Λ : Lang B V) (w : V → Nat) (hw : ∀ x, w (Λ.moved x) = w x) (code : B → Unc.Code V R V) (how : Option Cat) (f : CObj B)
include hw

/-- **C90**, no value: `f` is copied once and moved three times, to get `f`. -/
theorem C90_none (m : Mem V L) (h : Proper ([] : List (Expr B)) how f m) :
    let r := uncapture Λ [] how f m
    Counted w m r.2 ((paramCopies how + 1) * weight w (f.view Λ code m)) ((paramMoves how + 3) * weight w (f.view Λ code m)) := by
  obtain ⟨s1, n1, v1⟩ := many_step Λ w hw [] m h.lt h.apart
  obtain ⟨s2, l2, v2⟩ := param_step Λ w hw code how f m h.flt h.nodup
  obtain ⟨s3, n3, v3⟩ := shiftMany_step Λ w hw code [] (param Λ how f m).1 (param Λ how f m).2 (by simp [addrsAll]) l2
  rw [v2] at s3
  have s := s2.trans s3 (by simp)
  refine (s.cast ?_ ?_).counted
  · simp only [List.map_nil, uweights, List.sum_nil, fcost, Nat.add_mul]; omega
  · simp only [List.map_nil, uweights, List.sum_nil, if_true, Nat.add_mul]; omega

/-- **C90**, one value: it is copied three times, or, if of empty type, once, and `f` twice, beside the parameters. -/
theorem C90_one (e : Expr B) (m : Mem V L) (h : Proper [e] how f m) :
    let r := uncapture Λ [e] how f m
    Counted w m r.2
      ((if copies e then w (m.get e.addr) else 0) + (if Λ.isEmpty e.base then 1 else 3) * w (m.get e.addr) + (paramCopies how + 2) * weight w (f.view Λ code m))
      ((if copies e then 0 else w (m.get e.addr)) + paramMoves how * weight w (f.view Λ code m)) := by
  obtain ⟨s1, n1, v1⟩ := one_step Λ w hw e m (h.lt e (by simp))
  have l1 := s1.grows.next
  obtain ⟨s2, l2, v2⟩ := param_step Λ w hw code how f (one Λ e m).2 (fun a ha => Nat.lt_of_lt_of_le (h.flt a ha) l1) h.nodup
  have vf : f.view Λ code (one Λ e m).2 = f.view Λ code m := by
    apply CObj.view_frame Λ code s1.grows f
    intro a ha
    exact ⟨h.flt a ha, fun hm => h.disjoint e (by simp) ⟨rfl, hm.2⟩ (by rw [hm.1]; exact ha)⟩
  rw [vf] at s2 v2
  have k2 := s2.grows.next
  obtain ⟨s3, n3, v3⟩ := shift_step Λ w hw code (one Λ e m).1 (param Λ how f (one Λ e m).2).1 (param Λ how f (one Λ e m).2).2
    (fun a ha => Nat.lt_of_lt_of_le (n1.2 a ha).2 k2) l2
  have vu : (one Λ e m).1.view Λ (param Λ how f (one Λ e m).2).2 = argView Λ m e := by
    rw [UObj.view_frame Λ s2.grows, v1]
    intro a ha
    refine ⟨(n1.2 a ha).2, fun hm => ?_⟩
    have := h.flt a hm.2
    have := (n1.2 a ha).1
    omega
  rw [v2, vu] at s3
  have s := ((s1.mono (Y := Gives [e] how f) fun a ha => .inl ⟨e, by simp, ha⟩).trans s2 fun a _ ha => .inr ha).trans s3 (by simp)
  refine (s.cast ?_ ?_).counted
  · by_cases hE : Λ.isEmpty e.base = true
    · simp only [hE, if_true, argView, uweight, Nat.add_mul]; omega
    · simp only [hE, if_false, argView, uweight, Nat.add_mul, Bool.false_eq_true]; omega
  · omega

/-- **C90**, several values: the `i`-th is copied `5 + 2 * i` times and moved twice, or, if of empty type, copied once, and `f` is copied `2 * n + 2` times and moved twice, beside the parameters. -/
theorem C90_many (e e' : Expr B) (es : List (Expr B)) (m : Mem V L) (h : Proper (e :: e' :: es) how f m) :
    let r := uncapture Λ (e :: e' :: es) how f m
    Counted w m r.2
      (valueCopies Λ w m 0 (e :: e' :: es) + (paramCopies how + 2 * (es.length + 2) + 2) * weight w (f.view Λ code m))
      (valueMoves Λ w m (e :: e' :: es) + (paramMoves how + 2) * weight w (f.view Λ code m)) := by
  have hdef : uncapture Λ (e :: e' :: es) how f m = shiftMany Λ (many Λ (e :: e' :: es) m).1 (param Λ how f (many Λ (e :: e' :: es) m).2).1 (param Λ how f (many Λ (e :: e' :: es) m).2).2 := rfl
  have hlen : es.length + 2 = (e :: e' :: es).length := rfl
  have hne : e :: e' :: es ≠ [] := by simp
  rw [hdef, hlen]
  generalize e :: e' :: es = es' at *
  obtain ⟨s1, n1, v1⟩ := many_step Λ w hw es' m h.lt h.apart
  have l1 := s1.grows.next
  obtain ⟨s2, l2, v2⟩ := param_step Λ w hw code how f (many Λ es' m).2 (fun a ha => Nat.lt_of_lt_of_le (h.flt a ha) l1) h.nodup
  have vf : f.view Λ code (many Λ es' m).2 = f.view Λ code m := by
    apply CObj.view_frame Λ code s1.grows f
    rintro a ha
    refine ⟨h.flt a ha, ?_⟩
    rintro ⟨e, he, hm⟩
    exact h.disjoint e he ⟨rfl, hm.2⟩ (by rw [hm.1]; exact ha)
  rw [vf] at s2 v2
  have k2 := s2.grows.next
  obtain ⟨s3, n3, v3⟩ := shiftMany_step Λ w hw code (many Λ es' m).1 (param Λ how f (many Λ es' m).2).1 (param Λ how f (many Λ es' m).2).2
    (fun a ha => Nat.lt_of_lt_of_le (n1.2 a ha).2 k2) l2
  have vu : (many Λ es' m).1.map (UObj.view Λ (param Λ how f (many Λ es' m).2).2) = es'.map (argView Λ m) := by
    rw [views_frame Λ s2.grows, v1]
    intro a ha
    refine ⟨(n1.2 a ha).2, fun hm => ?_⟩
    have := h.flt a hm.2
    have := (n1.2 a ha).1
    omega
  have hnil : (many Λ es' m).1 ≠ [] := by
    intro hE
    rw [hE] at v1
    exact hne (List.map_eq_nil_iff.1 v1.symm)
  rw [v2, vu, fcost_eq _ _ (by simpa using hne)] at s3
  simp only [hnil, if_false] at s3
  have s := ((s1.mono (Y := Gives es' how f) fun a ha => .inl ha).trans s2 fun a _ ha => .inr ha).trans s3 (by simp)
  refine (s.cast ?_ ?_).counted
  · rw [valueCopies_eq]
    simp only [List.length_map, Nat.add_mul, Nat.one_mul]; omega
  · rw [valueMoves_eq]
    simp only [Nat.add_mul]; omega

end

/-- **C90**: the callable made is the one of Model/Uncapture.lean, of values and `f` before; nothing is used that was moved from. Its parts are new objects, and nothing else changes. -/
theorem C90_made (Λ : Lang B V) (code : B → Unc.Code V R V) (how : Option Cat) (f : CObj B) (es : List (Expr B)) (m : Mem V L) (h : Proper es how f m) :
    let r := uncapture Λ es how f m
    r.1.view Λ code r.2 = (uncaptured (es.map (argView Λ m))).shift (f.view Λ code m) ∧
    r.1.addrs.Nodup ∧ (∀ a ∈ r.1.addrs, m.next ≤ a ∧ a < r.2.next) ∧ Grows (Gives es how f) m r.2 := by
  obtain ⟨w, hw⟩ : ∃ w : V → Nat, ∀ x, w (Λ.moved x) = w x := ⟨fun _ => 0, fun _ => rfl⟩
  rcases es with _ | ⟨e, _ | ⟨e', es⟩⟩
  · obtain ⟨s2, l2, v2⟩ := param_step Λ w hw code how f m h.flt h.nodup
    obtain ⟨s3, n3, v3⟩ := shiftMany_step Λ w hw code [] (param Λ how f m).1 (param Λ how f m).2 (by simp [addrsAll]) l2
    rw [v2] at v3
    refine ⟨v3, n3.1, ?_, ?_⟩
    · intro a ha
      have := n3.2 a ha
      have := s2.grows.next
      exact ⟨by omega, (n3.2 a ha).2⟩
    · exact ((s2.mono (Y := Gives ([] : List (Expr B)) how f) fun a ha => .inr ha).trans s3 (by simp)).grows
  · obtain ⟨s1, n1, v1⟩ := one_step Λ w hw e m (h.lt e (by simp))
    have l1 := s1.grows.next
    obtain ⟨s2, l2, v2⟩ := param_step Λ w hw code how f (one Λ e m).2 (fun a ha => Nat.lt_of_lt_of_le (h.flt a ha) l1) h.nodup
    have vf : f.view Λ code (one Λ e m).2 = f.view Λ code m := by
      apply CObj.view_frame Λ code s1.grows f
      intro a ha
      exact ⟨h.flt a ha, fun hm => h.disjoint e (by simp) ⟨rfl, hm.2⟩ (by rw [hm.1]; exact ha)⟩
    rw [vf] at v2
    have k2 := s2.grows.next
    obtain ⟨s3, n3, v3⟩ := shift_step Λ w hw code (one Λ e m).1 (param Λ how f (one Λ e m).2).1 (param Λ how f (one Λ e m).2).2
      (fun a ha => Nat.lt_of_lt_of_le (n1.2 a ha).2 k2) l2
    have vu : (one Λ e m).1.view Λ (param Λ how f (one Λ e m).2).2 = argView Λ m e := by
      rw [UObj.view_frame Λ s2.grows, v1]
      intro a ha
      refine ⟨(n1.2 a ha).2, fun hm => ?_⟩
      have := h.flt a hm.2
      have := (n1.2 a ha).1
      omega
    rw [v2, vu] at v3
    refine ⟨v3, n3.1, ?_, ?_⟩
    · intro a ha
      have := (n3.2 a ha).1
      exact ⟨by omega, (n3.2 a ha).2⟩
    · exact (((s1.mono (Y := Gives [e] how f) fun a ha => .inl ⟨e, by simp, ha⟩).trans s2 fun a _ ha => .inr ha).trans s3 (by simp)).grows
  · have hdef : uncapture Λ (e :: e' :: es) how f m = shiftMany Λ (many Λ (e :: e' :: es) m).1 (param Λ how f (many Λ (e :: e' :: es) m).2).1 (param Λ how f (many Λ (e :: e' :: es) m).2).2 := rfl
    have hsh : (uncaptured ((e :: e' :: es).map (argView Λ m))).shift (f.view Λ code m) = shiftAll ((e :: e' :: es).map (argView Λ m)) (f.view Λ code m) := rfl
    simp only [hsh]
    rw [hdef]
    generalize e :: e' :: es = es' at *
    obtain ⟨s1, n1, v1⟩ := many_step Λ w hw es' m h.lt h.apart
    have l1 := s1.grows.next
    obtain ⟨s2, l2, v2⟩ := param_step Λ w hw code how f (many Λ es' m).2 (fun a ha => Nat.lt_of_lt_of_le (h.flt a ha) l1) h.nodup
    have vf : f.view Λ code (many Λ es' m).2 = f.view Λ code m := by
      apply CObj.view_frame Λ code s1.grows f
      rintro a ha
      refine ⟨h.flt a ha, ?_⟩
      rintro ⟨e, he, hm⟩
      exact h.disjoint e he ⟨rfl, hm.2⟩ (by rw [hm.1]; exact ha)
    rw [vf] at v2
    have k2 := s2.grows.next
    obtain ⟨s3, n3, v3⟩ := shiftMany_step Λ w hw code (many Λ es' m).1 (param Λ how f (many Λ es' m).2).1 (param Λ how f (many Λ es' m).2).2
      (fun a ha => Nat.lt_of_lt_of_le (n1.2 a ha).2 k2) l2
    have vu : (many Λ es' m).1.map (UObj.view Λ (param Λ how f (many Λ es' m).2).2) = es'.map (argView Λ m) := by
      rw [views_frame Λ s2.grows, v1]
      intro a ha
      refine ⟨(n1.2 a ha).2, fun hm => ?_⟩
      have := h.flt a hm.2
      have := (n1.2 a ha).1
      omega
    rw [v2, vu] at v3
    refine ⟨v3, n3.1, ?_, ?_⟩
    · intro a ha
      have := (n3.2 a ha).1
      exact ⟨by omega, (n3.2 a ha).2⟩
    · exact (((s1.mono (Y := Gives es' how f) fun a ha => .inl ha).trans s2 fun a _ ha => .inr ha).trans s3 (by simp)).grows

/-- **C90**: a call runs the code of the user once, with the arguments and then the values stored, outermost first, and copies and moves nothing itself. What is stored is passed as an lvalue, const in a const call; for
an empty type there is a temporary, passed as an rvalue, which is gone afterwards. -/
theorem C90_call (Λ : Lang B V) (ucode : B → Unc.Code V R V) (code : Cxx.Code B V L R) (c : Bool) (f : CObj B) (args : List (Expr B)) (m : Mem V L) (hf : ∀ a ∈ f.addrs, a < m.next) :
    ∃ callee vals m1, Grows (fun _ => False) m m1 ∧ m1.inits = m.inits ∧ callee.c = c ∧ callee.cat = .lv ∧ some (m1.get callee.addr) = ownState (f.view Λ ucode m) ∧
      denoted m1 vals = stored (f.view Λ ucode m) ∧ (∀ v ∈ vals, if v.addr < m.next then v.addr ∈ f.addrs ∧ v.c = c ∧ v.cat = .lv else v.c = false ∧ v.cat = .xv) ∧
      (∀ a, (f.call Λ code c args m).2.alive a = ((code callee (args ++ vals) m1).2.alive a && !(decide (m.next ≤ a) && decide (a < m1.next)))) ∧
      (f.call Λ code c args m).1 = (code callee (args ++ vals) m1).1 ∧
      (f.call Λ code c args m).2.inits = (code callee (args ++ vals) m1).2.inits ∧ (f.call Λ code c args m).2.get = (code callee (args ++ vals) m1).2.get ∧
      (f.call Λ code c args m).2.world = (code callee (args ++ vals) m1).2.world :=
  call_passes Λ ucode code c f args m hf

/-! Concrete: types `true` (empty) and `false`; numbers. -/
namespace Ex

def lang : Lang Bool Nat := ⟨id, fun _ => 0, fun _ => 99, fun _ => 0⟩
def mem : Mem Nat Unit := ⟨fun a => a, fun _ => true, 10, (), []⟩
def arg (b : Bool) (cat : Cat) (a : Nat) : Expr Bool := ⟨b, false, false, cat, a⟩
/-- Two lvalues, an xvalue and an object of empty type. -/
def args : List (Expr Bool) := [arg false .lv 3, arg false .lv 3, arg false .xv 5, arg true .lv 2]

theorem proper : Proper args (some .xv) (.fn false 1) mem := by
  refine ⟨by decide, ?_, by decide, by decide, ?_⟩
  · simp [Apart, args, arg]
  · simp [args, arg, Moves, CObj.addrs]

/-- Objects made by copies, and by moves. -/
def made (m : Mem Nat Unit) : Nat × Nat := ((m.inits.filter fun i => !i.move).length, (m.inits.filter fun i => i.move).length)

-- 1 + 5, 1 + 7, 9, 1 + 1, and 2 * 4 + 2 for f; 2, 2, 1 + 2, 0, and 1 + 2 for f
example : made (uncapture lang args (some .xv) (.fn false 1) mem).2 = (35, 10) := by decide
example : Counted (fun _ => 1) mem (uncapture lang args (some .xv) (.fn false 1) mem).2 35 10 :=
  C90_many lang (fun _ => 1) (fun _ => rfl) (fun _ => (⟨fun s _ => ((), s, fun _ => 0), fun _ _ => ()⟩ : Unc.Code Nat Unit Nat)) (some .xv) (.fn false 1) _ _ _ mem proper
example : made (uncapture lang [arg false .lv 3] none (.fn false 1) mem).2 = (6, 0) := by decide
example : made (uncapture lang [] (some .lv) (.fn false 1) mem).2 = (2, 3) := by decide

-- an xvalue that is used twice is used after it was moved from
example : ((uncapture lang [arg false .xv 3, arg false .lv 3] none (.fn false 1) mem).1.view lang
    (fun _ => (⟨fun s _ => ((), s, fun _ => 0), fun _ _ => ()⟩ : Unc.Code Nat Unit Nat)) (uncapture lang [arg false .xv 3, arg false .lv 3] none (.fn false 1) mem).2 |> stored) =
    [(false, 3), (false, 99)] := by decide

theorem proper_lv (n : Nat) : Proper (List.replicate n (arg false .lv 3)) none (.fn false 1) mem := by
  refine ⟨?_, ?_, by decide, by decide, ?_⟩
  · intro e he
    obtain ⟨_, rfl⟩ := List.mem_replicate.1 he
    decide
  · refine List.pairwise_iff_forall_sublist.2 ?_
    intro a b hab h
    have h1 : a ∈ List.replicate n (arg false .lv 3) := hab.subset (by simp)
    have h2 : b ∈ List.replicate n (arg false .lv 3) := hab.subset (by simp)
    rw [(List.mem_replicate.1 h1).2, (List.mem_replicate.1 h2).2] at h
    simp [arg] at h
  · intro e he
    obtain ⟨_, rfl⟩ := List.mem_replicate.1 he
    simp [Moves, arg]

theorem valueCopies_replicate : ∀ (n i : Nat), valueCopies lang (fun _ => 1) mem i (List.replicate n (arg false .lv 3)) = n * n + (5 + 2 * i) * n
  | 0, _ => rfl
  | n + 1, i => by
    rw [List.replicate_succ, valueCopies, valueCopies_replicate n (i + 1)]
    have e1 : (n + 1) * (n + 1) = n * n + 2 * n + 1 := by rw [Nat.add_mul, Nat.mul_add]; omega
    have e2 : (5 + 2 * (i + 1)) * n = (5 + 2 * i) * n + 2 * n := by rw [← Nat.add_mul]; congr 1
    have e3 : (5 + 2 * i) * (n + 1) = (5 + 2 * i) * n + (5 + 2 * i) := Nat.mul_succ _ _
    rw [e1, e2, e3]
    simp [copies, arg, lang]
    omega

end Ex

/-- **C90**: the copies are not linear in the number of values. -/
theorem C90_not_linear : ¬ ∃ k : Nat, ∀ (B V L : Type) (Λ : Lang B V) (es : List (Expr B)) (how : Option Cat) (f : CObj B) (m : Mem V L), Proper es how f m →
    ∀ c n, Counted (fun _ => 1) m (uncapture Λ es how f m).2 c n → c ≤ k * (es.length + 1) := by
  rintro ⟨k, h⟩
  have hp := Ex.proper_lv (k + 2)
  have hc := C90_many Ex.lang (fun _ => 1) (fun _ => rfl) (fun _ => (⟨fun s _ => ((), s, fun _ => 0), fun _ _ => ()⟩ : Unc.Code Nat Unit Nat)) none (.fn false 1) (Ex.arg false .lv 3)
    (Ex.arg false .lv 3) (List.replicate k (Ex.arg false .lv 3)) Ex.mem hp
  have hle := h Bool Nat Unit Ex.lang (List.replicate (k + 2) (Ex.arg false .lv 3)) none (.fn false 1) Ex.mem hp _ _ hc
  rw [show Ex.arg false .lv 3 :: Ex.arg false .lv 3 :: List.replicate k (Ex.arg false .lv 3) = List.replicate (k + 2) (Ex.arg false .lv 3) from rfl, Ex.valueCopies_replicate] at hle
  simp only [List.length_replicate] at hle
  have e1 : (k + 2) * (k + 2) = k * (k + 2 + 1) + k + 4 := by
    simp only [Nat.add_mul, Nat.mul_add]; omega
  omega

end Pigro.Unc.Mk
