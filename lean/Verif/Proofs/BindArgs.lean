import Verif.Proofs.Calls
/-!
# Lvalue arguments of a bound callable, before and after a call
-/
namespace Pigro.Cxx
variable {B V L R : Type}

theorem lv_args_xvApart {args : List (Expr B)} (h : ∀ e ∈ args, e.cat = .lv) : Apart args := by
  induction args with
  | nil => exact List.Pairwise.nil
  | cons e es ih =>
    refine List.Pairwise.cons (fun e' he' hc => ?_) (ih fun e he => h e (by simp [he]))
    have h1 := h e (by simp)
    have h2 := h e' (by simp [he'])
    rw [h1, h2] at hc
    simp at hc

theorem lv_args_captured {m m' : Mem V L} {args as : List (Expr B)} (h : ∀ e ∈ args, e.cat = .lv) (hp : Pairs (Captured m m') args as) :
    as = args := by
  apply List.ext_getElem?
  intro i
  cases hi : args[i]? with
  | none =>
    rw [List.getElem?_eq_none_iff] at hi ⊢
    rw [hp.1]
    exact hi
  | some e =>
    obtain ⟨e', h1, h2⟩ := hp.2 i e hi
    have := h e (List.mem_of_getElem? hi)
    simp only [Captured, this] at h2
    rw [h1, h2]

theorem decayed_map {m m' : Mem V L} {args as : List (Expr B)} (hp : Pairs (Decayed m m') args as) :
    (as.map fun e => m'.get e.addr) = args.map fun e => m.get e.addr := by
  apply List.ext_getElem?
  intro i
  cases hi : args[i]? with
  | none =>
    have : as[i]? = none := by
      rw [List.getElem?_eq_none_iff] at hi ⊢
      rw [hp.1]
      exact hi
    simp [hi, this]
  | some e =>
    obtain ⟨e', h1, h2⟩ := hp.2 i e hi
    simp only [List.getElem?_map, hi, h1, Option.map_some, h2.2.2.2.2.2.2]

theorem call_front_args [DecidableEq B] (Λ : Lang B V) (idxOf : B → Option Nat) (b : Bound B) (hd : b.dir = .front) (cat : Cat)
    (pf : PureFn V L R) (args : List (Expr B)) (m : Mem V L) (s : V) (vs : List V) (hok : b.ConstOk false)
    (hsep : b.Separate m.next) (hidx : ∀ e, args = [e] → idxOf e.base ≠ some 0 ∧ idxOf e.base ≠ some 1)
    (hlv : ∀ e ∈ args, e.cat = .lv ∧ e.c = false ∧ e.addr < m.next) (hnd : (args.map Expr.addr).Nodup)
    (hs : b.f.holds Λ m s) (hvs : HoldAll Λ m b.els vs) :
    ∃ m', b.call Λ idxOf pf.code false cat args m = .invoked (pf s (vs ++ args.map fun e => m.get e.addr) m.world).1 m' ∧
      (args.map fun e => m'.get e.addr) =
        (List.range args.length).map fun i => (pf s (vs ++ args.map fun e => m.get e.addr) m.world).2.2.1 (b.els.length + i) := by
  obtain ⟨sf, se, -, -⟩ := hsep.spec
  have hl : ∀ e ∈ args, e.cat = .lv := fun e he => (hlv e he).1
  obtain ⟨fe, ts, as, m', g, hf, hts, has, hcall⟩ := call_front Λ idxOf b hd false cat args m hok hidx
    (fun e he => (hlv e he).2.2) (lv_args_xvApart hl).xv
  have hS : ∀ a, ¬ ∃ e ∈ args, Moves e a := by
    rintro a ⟨e, he, h⟩
    have := hl e he
    rw [h.2.1] at this
    simp at this
  have hget : ∀ a < m.next, m'.get a = m.get a := fun a ha => g.frame a ha (hS a)
  have hargs := lv_args_captured hl has
  subst hargs
  have r1 : m'.get fe.addr = s := by
    rcases hbf : b.f with x | ⟨ty, a⟩
    · rw [hbf] at hf hs
      rw [hf.2.2.2.2.2.2]
      exact hs.symm
    · rw [hbf] at hf hs
      rw [hf]
      simp only
      rw [hget a (sf ty a hbf)]
      exact hs
  have r2 : (ts.map fun e => m'.get e.addr) = vs :=
    holdAll_map g hvs hts fun i ty a hi => ⟨se i ty a hi, hS a⟩
  have r3 : (as.map fun e => m'.get e.addr) = as.map fun e => m.get e.addr :=
    List.map_congr_left fun e he => hget _ (hlv e he).2.2
  have hcode : ∀ x, x = pf s (vs ++ as.map fun e => m.get e.addr) m.world →
      (pf.code (B := B) fe (ts ++ as) m') = (x.1, { assignAll (ts ++ as) x.2.2.1 0
        (if fe.c then m' else m'.write fe.addr x.2.1) with world := x.2.2.2 }) := by
    rintro x rfl
    simp only [PureFn.code, List.map_append, r1, r2, r3, g.world]
  generalize pf s (vs ++ as.map fun e => m.get e.addr) m.world = x at hcode ⊢
  have hcode := hcode x rfl
  refine ⟨(pf.code fe (ts ++ as) m').2.killRange m.next m'.next, ?_, ?_⟩
  · rw [hcall R pf.code, hcode]
  · rw [hcode]
    apply List.ext_getElem?
    intro i
    cases hi : as[i]? with
    | none =>
      have : as.length ≤ i := by rwa [List.getElem?_eq_none_iff] at hi
      simp [this]
    | some e =>
      have hil : i < as.length := (List.getElem?_eq_some_iff.1 hi).1
      have hat := assignAll_at (ts ++ as) x.2.2.1 0 (if fe.c then m' else m'.write fe.addr x.2.1) (ts.length + i) e
        (by rw [List.getElem?_append_right (by omega)]; simpa using hi) (hlv e (List.mem_of_getElem? hi)).2.1 (by
          intro j e' hj hij h
          rw [List.getElem?_append_right (by omega)] at hj
          have h1 : (as.map Expr.addr)[i]? = some e.addr := by simp [hi]
          have h2 : (as.map Expr.addr)[j - ts.length]? = some e.addr := by simp [hj, h]
          have := (List.getElem?_inj (by simpa using hil) hnd).1 (h1.trans h2.symm)
          omega)
      have hr : (List.range as.length)[i]? = some i := List.getElem?_range hil
      simp only [List.getElem?_map, hi, hr, Option.map_some]
      congr 1
      rw [← hts.1, ← Nat.zero_add (ts.length + i)]
      exact hat

theorem call_back_args [DecidableEq B] (Λ : Lang B V) (idxOf : B → Option Nat) (b : Bound B) (hd : b.dir = .back) (cat : Cat)
    (pf : PureFn V L R) (args : List (Expr B)) (m : Mem V L) (s : V) (vs : List V) (hok : b.ConstOk false)
    (hsep : b.Separate m.next) (hidx : ∀ e, args = [e] → idxOf e.base ≠ some 0 ∧ idxOf e.base ≠ some 1)
    (hlv : ∀ e ∈ args, e.cat = .lv ∧ e.addr < m.next) (hap : ∀ e ∈ args, e.addr ∉ b.els.filterMap Elem.object)
    (hs : b.f.holds Λ m s) (hvs : HoldAll Λ m b.els vs) :
    ∃ m', b.call Λ idxOf pf.code false cat args m = .invoked (pf s ((args.map fun e => m.get e.addr) ++ vs) m.world).1 m' ∧
      ∀ e ∈ args, m'.get e.addr = m.get e.addr := by
  obtain ⟨sf, se, -, -⟩ := hsep.spec
  have hl : ∀ e ∈ args, e.cat = .lv := fun e he => (hlv e he).1
  obtain ⟨fe, ts, as, m', g, hf, hts, has, hcall⟩ := call_back Λ idxOf b hd false cat args m hok sf hidx
    (fun e he => (hlv e he).2) (lv_args_xvApart hl)
  have hS : ∀ a, ¬ ∃ e ∈ args, Moves e a := by
    rintro a ⟨e, he, h⟩
    have := hl e he
    rw [h.2.1] at this
    simp at this
  have hget : ∀ a < m.next, m'.get a = m.get a := fun a ha => g.frame a ha (hS a)
  obtain ⟨hf1, hf2, hf3, hf4, hf5, hf6⟩ := hf
  have r1 : m'.get fe.addr = s := by
    rcases hbf : b.f with x | ⟨ty, a⟩
    · rw [hbf] at hf6 hs
      rw [hf6.2]
      exact hs.symm
    · rw [hbf] at hf6 hs
      rw [hf6.2]
      exact hs
  have r2 : (ts.map fun e => m'.get e.addr) = vs :=
    holdAll_map g hvs hts fun i ty a hi => ⟨se i ty a hi, hS a⟩
  have r3 := decayed_map has
  have hcode : ∀ x, x = pf s ((args.map fun e => m.get e.addr) ++ vs) m.world →
      (pf.code (B := B) fe (as ++ ts) m') = (x.1, { assignAll (as ++ ts) x.2.2.1 0
        (m'.write fe.addr x.2.1) with world := x.2.2.2 }) := by
    rintro x rfl
    simp only [PureFn.code, List.map_append, r1, r2, r3, g.world, hf1, Bool.false_eq_true, if_false]
  generalize pf s ((args.map fun e => m.get e.addr) ++ vs) m.world = x at hcode ⊢
  have hcode := hcode x rfl
  refine ⟨(pf.code fe (as ++ ts) m').2.killRange m.next m'.next, ?_, ?_⟩
  · rw [hcall R pf.code, hcode]
  · intro e he
    have hlt := (hlv e he).2
    rw [hcode]
    have ho := assignAll_other (as ++ ts) x.2.2.1 e.addr 0 (m'.write fe.addr x.2.1) (by
      intro e' he' _
      rcases List.mem_append.1 he' with h | h
      · obtain ⟨j, hj⟩ := List.mem_iff_getElem?.1 h
        have hjl : j < args.length := by
          have := (List.getElem?_eq_some_iff.1 hj).1
          have := has.1
          omega
        obtain ⟨e2, h1, h2⟩ := has.2 j _ (List.getElem?_eq_getElem hjl)
        rw [hj] at h1
        simp only [Option.some.injEq] at h1
        subst h1
        have := h2.2.2.2.2.1
        omega
      · obtain ⟨j, hj⟩ := List.mem_iff_getElem?.1 h
        have hjl : j < b.els.length := by
          have := (List.getElem?_eq_some_iff.1 hj).1
          have := hts.1
          omega
        obtain ⟨e2, h1, h2⟩ := hts.2 j _ (List.getElem?_eq_getElem hjl)
        rw [hj] at h1
        simp only [Option.some.injEq] at h1
        subst h1
        have hm : b.els[j] ∈ b.els := List.getElem_mem hjl
        rcases hel : b.els[j] with y | ⟨ty, a⟩
        · rw [hel] at h2
          have := h2.2.2.2.2.1
          omega
        · rw [hel] at h2 hm
          rw [h2]
          intro h
          exact hap e he (List.mem_filterMap.2 ⟨_, hm, by simpa [Elem.object] using h⟩))
    refine Eq.trans ho ?_
    have : e.addr ≠ fe.addr := by omega
    simp only [Mem.write, this, if_false]
    exact hget _ hlt

end Pigro.Cxx
