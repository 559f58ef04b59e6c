import Verif.Spec.MakeCopies
import Verif.Proofs.LazyRun
import Verif.Proofs.Copies
import Verif.Proofs.CallCopies
/-!
# Lemmas: what making a lazy function copies
-/
namespace Pigro.Cxx
variable {B V L : Type}

/-- `m'` comes after `m`: no object has changed its weight, and what was copied weighs `n`. -/
structure Copying (w : V → Nat) (m m' : Mem V L) (n : Nat) : Prop where
  next : m.next ≤ m'.next
  same : ∀ a < m.next, w (m'.get a) = w (m.get a)
  made : ∃ l, Made m m' l ∧ (∀ a ∈ copied l, a < m'.next) ∧ ((copied l).map fun a => w (m'.get a)).sum = n

section
variable {w : V → Nat} {m m1 m2 : Mem V L} {n n' : Nat}

theorem Copying.of_eq (hn : m.next ≤ m1.next) (hs : ∀ a < m.next, w (m1.get a) = w (m.get a)) (hi : m1.inits = m.inits) : Copying w m m1 0 :=
  ⟨hn, hs, [], Made.of_eq hi, by simp [copied], rfl⟩

theorem Copying.refl (w : V → Nat) (m : Mem V L) : Copying w m m 0 := Copying.of_eq (Nat.le_refl _) (fun _ _ => rfl) rfl

theorem Copying.trans (h : Copying w m m1 n) (h' : Copying w m1 m2 n') : Copying w m m2 (n + n') := by
  obtain ⟨l, a1, a2, a3⟩ := h.made
  obtain ⟨l', b1, b2, b3⟩ := h'.made
  have hn := h.next
  have hn' := h'.next
  have hc : copied (l ++ l') = copied l ++ copied l' := by simp [copied]
  refine ⟨by omega, fun a ha => by rw [h'.same a (by omega), h.same a ha], l ++ l', a1.trans b1, ?_, ?_⟩
  · rw [hc]
    intro a ha
    rcases List.mem_append.1 ha with ha | ha
    · have := a2 a ha; omega
    · exact b2 a ha
  · rw [hc, List.map_append, List.sum_append, b3, ← a3]
    congr 1
    apply congrArg
    apply List.map_congr_left
    intro a ha
    exact h'.same _ (a2 a ha)

theorem Copying.cast (h : Copying w m m1 n) (e : n = n') : Copying w m m1 n' := e ▸ h

theorem Copying.alloc (w : V → Nat) (m : Mem V L) (x : V) : Copying w m (m.alloc x) 0 :=
  Copying.of_eq (by simp [Mem.alloc]) (fun a ha => by simp only [Mem.alloc]; rw [if_neg (by omega)]) rfl

theorem Copying.killRange (h : Copying w m m1 n) (lo hi : Nat) : Copying w m (m1.killRange lo hi) n := ⟨h.next, h.same, h.made⟩

theorem Copying.kill (h : Copying w m m1 n) (a : Nat) : Copying w m (m1.kill a) n := ⟨h.next, h.same, h.made⟩

/-- What passing `e` by value copies. -/
def pass (w : V → Nat) (m : Mem V L) (e : Expr B) : Nat := if e.cat = .xv ∧ e.c = false then 0 else w (m.get e.addr)

theorem Copying.initFrom {Λ : Lang B V} (hm : ∀ x, w (Λ.moved x) = w x) (e : Expr B) (m : Mem V L) (he : e.addr < m.next) :
    Copying w m (Λ.initFrom e m) (pass w m e) := by
  obtain ⟨h1, -, h3⟩ := Steps.initFrom hm e m
  refine ⟨h1.next, h1.same, [e.made], made_initFrom Λ e m, ?_, ?_⟩
  · intro a ha
    have : a = e.addr := by
      simp only [copied, Expr.made, List.mem_map, List.mem_filter, List.mem_singleton] at ha
      obtain ⟨p, ⟨rfl, -⟩, rfl⟩ := ha
      rfl
    omega
  · by_cases hc : e.cat = .xv ∧ e.c = false
    · simp [copied, Expr.made, hc.1, hc.2, pass]
    · have : (decide (e.cat = .xv) && !e.c) = false := by
        rcases h : e.cat with _ | _ <;> rcases h' : e.c with _ | _ <;> simp_all
      simp only [copied, Expr.made, this, pass, if_neg hc]
      simp [h1.same _ he]

theorem Copying.decayAll {Λ : Lang B V} (hm : ∀ x, w (Λ.moved x) = w x) : ∀ (es : List (Expr B)) (m : Mem V L), (∀ e ∈ es, e.addr < m.next) →
    Copying w m (decayAll Λ es m).2 (es.map (pass w m)).sum
  | [], m, _ => Copying.refl w m
  | e :: es, m, h => by
    have h1 := Copying.initFrom hm e m (h e (by simp))
    have h3 := h1.next
    have ih := Copying.decayAll hm es (Λ.initFrom e m) (fun e' he' => by have := h e' (by simp [he']); omega)
    refine (h1.trans ih).cast ?_
    rw [List.map_cons, List.sum_cons]
    congr 2
    apply List.map_congr_left
    intro e' he'
    simp only [pass, h1.same _ (h e' (by simp [he']))]

end
end Pigro.Cxx

namespace Pigro.LM
open Cxx
variable {D W E S : Type} {w : MV D W E S → Nat}

theorem bindHere_copying (Θ : Empties D W E S) (moved : MV D W E S → MV D W E S) (dir : Dir) (es : List (Expr LB)) (lam : LB × MV D W E S)
    (mk : MV D W E S → List (MV D W E S) → Option (MV D W E S)) (m : LMem D W E S) (hlt : ∀ e ∈ es, e.addr < m.next) (hct : ∀ e ∈ es, isCT e.base = false)
    (r : Expr LB) (m' : LMem D W E S) (h : bindHere (lang Θ moved) dir es lam mk m = some (r, m')) :
    Copying w m m' (es.map fun e => w (m.get e.addr)).sum := by
  simp only [bindHere] at h
  have na : (m.alloc lam.2).next = m.next + 1 := rfl
  rcases hb : makeBound (lang Θ moved).toLang isCT (if es.all fun e => (lang Θ moved).isEmpty e.base then LB.emptyTuple else .tuple) dir es
    ⟨lam.1, false, false, .xv, m.next⟩ (m.alloc lam.2) with _ | ⟨b, m3⟩
  · simp only [hb, reduceCtorEq] at h
  simp only [hb] at h
  rcases hx : mk (elemVal (lang Θ moved) m3 b.f) (b.els.map (elemVal (lang Θ moved) m3)) with _ | x
  · simp [hx] at h
  simp only [hx, Option.some.injEq, Prod.mk.injEq] at h
  have kb := makeBound_keeps (lang Θ moved).toLang isCT _ dir es _ _ m3 b (fun e he => by have := hlt e he; omega) (by simp only; omega)
    (fun e he => hct e (by rw [he]; simp)) hb
  obtain ⟨temps, tuple, stored, k1, k2, -⟩ := made_makeBound (lang Θ moved).toLang isCT _ dir es _ _ b m3 hb
  have kn := kb.next
  have hs : ∀ a < m.next, m3.get a = m.get a := by
    intro a ha
    rw [kb.frame a (by omega) (by intro h; have := h.1; simp only at this; omega)]
    simp only [Mem.alloc]
    rw [if_neg (by omega)]
  have hs' : ∀ a < m.next, (m3.alloc x).get a = m.get a := by
    intro a ha
    simp only [Mem.alloc]
    rw [if_neg (by omega)]
    exact hs a ha
  rw [← h.2]
  have hc : ∀ (l : List (Expr LB)) (t1 : List Nat) (b1 b2 : Bool) (t2 : List Nat), copied ((l.map fun e => (false, e.addr)) ++ (t1.map fun a => (true, a)) ++
      (if b1 then [] else (rvalues [(⟨lam.1, false, false, .xv, m.next⟩ : Expr LB)]).map Expr.made) ++ (if b2 then [] else t2.map fun a => (true, a))) =
      l.map fun e => e.addr := by
    intro l t1 b1 b2 t2
    have e1 : ∀ t : List Nat, copied (t.map fun a => (true, a)) = [] := by
      intro t
      simp [copied]
    have e2 : ∀ l l' : List (Bool × Nat), copied (l ++ l') = copied l ++ copied l' := by simp [copied]
    have e3 : copied (l.map fun e => (false, e.addr)) = l.map fun e => e.addr := by
      simp only [copied, List.filter_map, List.map_map]
      rw [List.filter_eq_self.2 (by simp)]
      rfl
    rw [e2, e2, e2, e1, e3]
    cases b1 <;> cases b2 <;> simp [rvalues, Expr.made, copied]
  refine Copying.kill ?_ _
  refine ⟨by simp only [Mem.alloc] at *; omega, fun a ha => by rw [hs' a ha], _, k1, ?_, ?_⟩
  · rw [hc]
    intro a ha
    obtain ⟨e, he, rfl⟩ := List.mem_map.1 ha
    have := hlt e he
    simp only [Mem.alloc] at *
    omega
  · rw [hc, List.map_map]
    apply congrArg
    apply List.map_congr_left
    intro e he
    simp only [Function.comp_apply, hs' _ (hlt e he)]

theorem build_copying (Θ : Empties D W E S) (moved : MV D W E S → MV D W E S) (hm : ∀ x, w (moved x) = w x) (dir : Dir) (params : List (Expr LB)) (xs : List (MV D W E S))
    (lam : LB × MV D W E S) (mk : MV D W E S → List (MV D W E S) → Option (MV D W E S)) (m : LMem D W E S) (hd : Rel2 (Den Θ m) params xs) (hx : Apart params)
    (r : Expr LB) (m' : LMem D W E S) (h : build (lang Θ moved) dir params lam mk m = some (r, m')) :
    Copying w m m' ((params.map (pass w m)).sum + (xs.map w).sum) := by
  obtain ⟨p1, -, -, -⟩ := params_spec Θ moved params xs m hd hx
  simp only [build] at h
  have hp : Copying w m (decayAll (lang Θ moved).toLang params m).2 _ := Copying.decayAll (Λ := (lang Θ moved).toLang) hm params m fun e he => by
    obtain ⟨x, -, h⟩ := rel2_mem hd e he
    exact h.1
  rcases hb : bindHere (lang Θ moved) dir ((decayAll (lang Θ moved).toLang params m).1.map Expr.named) lam mk (decayAll (lang Θ moved).toLang params m).2 with _ | ⟨r1, m1⟩
  · simp [hb] at h
  simp only [hb, Option.some.injEq, Prod.mk.injEq] at h
  have hq := bindHere_copying (w := w) Θ moved dir _ lam mk _ (fun e he => by
      obtain ⟨x, -, h⟩ := rel2_mem p1 e he
      exact h.1) (fun e he => by
      obtain ⟨x, -, -, h, -⟩ := rel2_mem p1 e he
      rw [h]
      exact base_isCT Θ x) r1 m1 hb
  rw [← h.2]
  refine ((hp.trans hq).cast ?_).killRange _ _
  rw [rel2_map (f := fun e => w ((decayAll (lang Θ moved).toLang params m).2.get e.addr)) (g := w) (fun a b h => by simp only [h.2.2]) p1]

theorem wrapDepM_copying (Θ : Empties D W E S) (moved : MV D W E S → MV D W E S) (f : Expr LB) (x : MV D W E S) (m : LMem D W E S) (hf : Den Θ m f x)
    (r : Expr LB) (m' : LMem D W E S) (h : wrapDepM (lang Θ moved) f m = some (r, m')) : Copying w m m' (w x) := by
  have hq := bindHere_copying (w := w) Θ moved .back [f] _ _ m (by simpa using hf.1) (by
    intro e he
    rw [List.mem_singleton] at he
    rw [he, hf.2.1]
    exact base_isCT Θ x) r m' h
  simpa [hf.2.2] using hq

/-! ### The functions of lazy.h -/

variable {wf : UFn D W E S → Nat} {wv : Val D → Nat}

theorem weighs_eq : ∀ os : List (Obj D W E S), ((os.map .obj).map (MV.weigh wf wv)).sum = Obj.weighs wf wv os
  | [] => rfl
  | o :: os => by
    rw [List.map_cons, List.map_cons, List.sum_cons, weighs_eq os]
    rfl

theorem weigh_detailLazy (F : Fun D W E S) (os : List (Obj D W E S)) : Obj.weigh wf wv (detailLazy F os) = MV.weigh wf wv (.func F) + Obj.weighs wf wv os := by
  rcases F with u | u <;> rcases hr : u.ret with _ | _ <;> simp [detailLazy, Obj.weigh, MV.weigh, Fun.ret, Cache.empty, hr]

theorem lazyValueM_copying (Θ : Empties D W E S) (moved : MV D W E S → MV D W E S) (hm : ∀ x, (moved x).weigh wf wv = x.weigh wf wv) (value changed : Expr LB) (v : Val D) (c : Bool)
    (m : LMem D W E S) (hv : Den Θ m value (.val v)) (hc : Den Θ m changed (.flag c)) (hx : Apart [value, changed]) (r : Expr LB) (m' : LMem D W E S)
    (h : lazyValueM (lang Θ moved) value changed m = some (r, m')) :
    Copying (MV.weigh wf wv) m m' (pass (MV.weigh wf wv) m value + wv v) := by
  have hq := build_copying Θ moved hm .back [value, changed] [.val v, .flag c] _ _ m ⟨hv, hc, trivial⟩ hx r m' h
  refine hq.cast ?_
  have : pass (MV.weigh wf wv) m changed = 0 := by
    simp only [pass, hc.2.2, MV.weigh]
    split <;> rfl
  simp only [List.map_cons, List.map_nil, List.sum_cons, List.sum_nil, this, MV.weigh]
  omega

theorem detailLazyM_copying (Θ : Empties D W E S) (moved : MV D W E S → MV D W E S) (hm : ∀ x, (moved x).weigh wf wv = x.weigh wf wv) (f : Expr LB) (deps : List (Expr LB))
    (F : Fun D W E S) (os : List (Obj D W E S)) (m : LMem D W E S) (hf : Den Θ m f (.func F)) (hd : Rel2 (Den Θ m) deps (os.map .obj)) (hx : Apart (f :: deps))
    (hxv : ∀ e ∈ f :: deps, e.cat = .xv ∧ e.c = false) (r : Expr LB) (m' : LMem D W E S)
    (h : detailLazyM (lang Θ moved) f deps m = some (r, m')) :
    Copying (MV.weigh wf wv) m m' (Obj.weigh wf wv (detailLazy F os)) := by
  have hr : retOf m f = some F.ret := by rw [retOf, hf.2.2]
  simp only [detailLazyM, hr] at h
  have hq := build_copying Θ moved hm .back (f :: deps) (.func F :: os.map .obj) _ _ m ⟨hf, hd⟩ hx r m' h
  refine hq.cast ?_
  have h0 : ∀ es : List (Expr LB), (∀ e ∈ es, e.cat = .xv ∧ e.c = false) → (es.map (pass (MV.weigh wf wv) m)).sum = 0 := by
    intro es
    induction es with
    | nil => intro _; rfl
    | cons e es ih =>
      intro hes
      rw [List.map_cons, List.sum_cons, ih fun e he => hes e (by simp [he])]
      simp only [pass, if_pos (hes e (by simp))]
  rw [h0 _ hxv, List.map_cons, List.sum_cons, weighs_eq, weigh_detailLazy]
  omega

/-- What `ensure_lazy` copies, given an lvalue. -/
def ensureCopies [CxxData D] (wf : UFn D W E S → Nat) (wv : Val D → Nat) : DepArg D W E S → Nat
  | .value v => 3 * wv v
  | .function u => 3 * wf u + 2 * wv (.data CxxData.zero)
  | .lazyObj o => o.weigh wf wv

theorem pass_lv {w : MV D W E S → Nat} {m : LMem D W E S} {e : Expr LB} (h : e.cat = .lv) : pass w m e = w (m.get e.addr) := by
  simp [pass, h]

theorem ensureLazyM_copying [CxxData D] (Θ : Empties D W E S) (moved : MV D W E S → MV D W E S) (hm : ∀ x, (moved x).weigh wf wv = x.weigh wf wv) (dep : Expr LB)
    (d : DepArg D W E S) (m : LMem D W E S) (hd : Den Θ m dep (argVal d)) (hlv : dep.cat = .lv) (r : Expr LB) (m' : LMem D W E S)
    (h : ensureLazyM (lang Θ moved) dep m = some (r, m')) : Copying (MV.weigh wf wv) m m' (ensureCopies wf wv d) := by
  obtain ⟨kp, wp, np, dp⟩ := param_spec Θ moved dep _ m hd hlv
  have cp : Copying (MV.weigh wf wv) m ((lang Θ moved).initFrom dep m) (MV.weigh wf wv (argVal d)) := by
    have := Copying.initFrom (Λ := (lang Θ moved).toLang) hm dep m hd.1
    rwa [pass_lv hlv, hd.2.2] at this
  have hcaps : capsM (m.get dep.addr) = d.caps := by rw [hd.2.2, capsM_argVal]
  have hn1 : ((((lang Θ moved).initFrom dep m).alloc (.flag false)) : LMem D W E S).next = m.next + 2 := by rw [alloc_next, np]
  have hflag : Den Θ (((lang Θ moved).initFrom dep m).alloc (.flag false)) (⟨.flag false, false, false, .xv, m.next + 1⟩ : Expr LB)
      (.flag false : MV D W E S) := ⟨by rw [hn1]; simp only; omega, rfl, by simp only; rw [← np, alloc_get]⟩
  have hpar : Den Θ (((lang Θ moved).initFrom dep m).alloc (.flag false)) ⟨dep.base, false, false, .lv, m.next⟩ (argVal d) :=
    (dp false false .lv).keeps (Keeps.alloc (Keeps.refl (fun _ => False) _) _) (by simp)
  have hap : Apart [(⟨dep.base, false, false, .lv, m.next⟩ : Expr LB), ⟨.flag false, false, false, .xv, m.next + 1⟩] := by
    simp [Apart]
  rcases d with v | u | o
  · -- a value
    have h2 : ensureSelect (capsM (m.get dep.addr)) = some .constant := by rw [hcaps]; rfl
    simp only [ensureLazyM, h2, decayCopy, np, Expr.named] at h
    rcases hl : lazyValueM (lang Θ moved) ⟨dep.base, false, false, .lv, m.next⟩ ⟨.flag false, false, false, .xv, m.next + 1⟩
      (((lang Θ moved).initFrom dep m).alloc (.flag false)) with _ | ⟨r1, m1⟩
    · simp only [hl, reduceCtorEq] at h
    simp only [hl, Option.some.injEq, Prod.mk.injEq] at h
    have c1 := lazyValueM_copying Θ moved hm _ _ v false _ hpar hflag hap r1 m1 hl
    rw [← h.2]
    refine (((cp.trans (Copying.alloc _ _ _)).trans c1).cast ?_).killRange _ _
    rw [pass_lv rfl, hpar.2.2]
    simp only [argVal, MV.weigh, ensureCopies]
    omega
  · -- a function
    have h2 : ensureSelect (capsM (.user u : MV D W E S)) = some .poll := rfl
    have hg : m.get dep.addr = .user u := hd.2.2
    simp only [ensureLazyM, h2, hg, decayCopy] at h
    split at h
    · simp at h
    obtain ⟨a, m1, h3, mk⟩ := wrapDepM_spec Θ moved (Expr.named ⟨dep.base, false, false, .xv, m.next⟩) u _ (dp false false .lv)
    have c1 := wrapDepM_copying (w := MV.weigh wf wv) Θ moved (Expr.named ⟨dep.base, false, false, .xv, m.next⟩) _ _ (dp false false .lv) _ _ h3
    simp only [h3] at h
    have k2 : Keeps (fun _ => False) m1 ((m1.alloc (.val (.data CxxData.zero))).alloc (.flag true)) :=
      Keeps.alloc (Keeps.alloc (Keeps.refl _ _) _) _
    have n2 : ((m1.alloc (.val (.data CxxData.zero))).alloc (.flag true)).next = m1.next + 2 := rfl
    have hz : Den Θ ((m1.alloc (.val (.data CxxData.zero))).alloc (.flag true)) ⟨Θ.base (.val (.data CxxData.zero)), false, false, .xv, m1.next⟩
        (.val (.data CxxData.zero) : MV D W E S) := ⟨by rw [n2]; simp only; omega, rfl, by simp [Mem.alloc]⟩
    have ht : Den Θ ((m1.alloc (.val (.data CxxData.zero))).alloc (.flag true)) ⟨.flag true, false, false, .xv, m1.next + 1⟩
        (.flag true : MV D W E S) := ⟨by rw [n2]; simp only; omega, rfl, by simp [Mem.alloc]⟩
    obtain ⟨b, m3, h4, mk3⟩ := lazyValueM_spec Θ moved _ _ _ true _ hz ht (by simp [Apart])
    have c2 := lazyValueM_copying Θ moved hm _ _ _ true _ hz ht (by simp [Apart]) _ _ h4
    have hlb : (lang Θ moved).base = Θ.base := rfl
    simp only [hlb, h4] at h
    have hnew3 := mk3.new
    have hlt := mk.lt
    have hX3 : ∀ c < m1.next, ¬ ∃ e ∈ [(⟨Θ.base (.val (.data CxxData.zero)), false, false, .xv, m1.next⟩ : Expr LB), ⟨.flag true, false, false, .xv, m1.next + 1⟩], Moves e c := by
      rintro c hc ⟨e, hmem, h⟩
      simp only [List.mem_cons, List.not_mem_nil, or_false] at hmem
      rcases hmem with rfl | rfl <;> (have := h.1; simp only at this; omega)
    have k3 : Keeps (fun _ => False) m1 m3 := k2.trans mk3.keeps fun c hc h => hX3 c hc h
    have hF : Den Θ m3 ⟨Θ.base (.func (.wrapDep u)), false, false, .xv, a⟩ (.func (.wrapDep u) : MV D W E S) :=
      (mk.den .xv false false).keeps k3 (by simp)
    rcases hdl : detailLazyM (lang Θ moved) ⟨Θ.base (.func (.wrapDep u)), false, false, .xv, a⟩ [⟨Θ.base (.obj (.lazyValue (.data CxxData.zero) true)), false, false, .xv, b⟩] m3
      with _ | ⟨r4, m4⟩
    · simp only [hdl, reduceCtorEq] at h
    simp only [hdl, Option.some.injEq, Prod.mk.injEq] at h
    have c3 := detailLazyM_copying Θ moved hm ⟨Θ.base (.func (.wrapDep u)), false, false, .xv, a⟩
      [⟨Θ.base (.obj (.lazyValue (.data CxxData.zero) true)), false, false, .xv, b⟩] (.wrapDep u)
      [.lazyValue (.data CxxData.zero) true] m3 hF ⟨mk3.den .xv false false, trivial⟩ (by
        simp only [Apart, List.pairwise_cons, List.mem_singleton, forall_eq, List.not_mem_nil, false_implies, implies_true, List.Pairwise.nil,
          and_true]
        intro _
        omega) (by simp) r4 m4 hdl
    rw [← h.2]
    have ca := (Copying.alloc (MV.weigh wf wv) m1 (.val (.data CxxData.zero))).trans (Copying.alloc (MV.weigh wf wv) (m1.alloc (.val (.data CxxData.zero))) (.flag true))
    refine (((((cp.trans c1).trans ca).trans c2).trans c3).cast ?_).killRange _ _
    simp only [weigh_detailLazy, Obj.weighs, Obj.weigh, argVal, MV.weigh, pass, ensureCopies, and_self, if_true]
    omega
  · -- a lazy object
    by_cases hc : o.caps = ⟨true, true⟩
    · have h2 : ensureSelect (capsM (m.get dep.addr)) = some .asIs := by
        rw [hcaps]
        simp only [DepArg.caps, hc]
        rfl
      simp only [ensureLazyM, h2, decayCopy, Option.some.injEq, Prod.mk.injEq] at h
      rw [← h.2]
      have c1 := Copying.initFrom (Λ := (lang Θ moved).toLang) hm ⟨dep.base, false, false, .xv, m.next⟩ ((lang Θ moved).initFrom dep m) (by simp only; omega)
      refine ((cp.trans c1).cast ?_).kill _
      simp [pass, argVal, MV.weigh, ensureCopies]
    · have hi : (DepArg.lazyObj o).caps.invocable = false := by
        cases o <;> simp_all [DepArg.caps, Obj.caps]
      have h1 : ensureSelect (DepArg.lazyObj o).caps = some .constant := by
        rcases hc : (DepArg.lazyObj o).caps with ⟨x, y⟩
        rw [hc] at hi
        simp only at hi
        subst hi
        cases x <;> rfl
      rw [← hcaps] at h1
      simp only [ensureLazyM, h1, decayCopy, np, Expr.named] at h
      rw [lazyValueM_none Θ moved _ _ o false _ hpar hflag hap] at h
      simp at h

theorem ensureAllM_copying [CxxData D] (Θ : Empties D W E S) (moved : MV D W E S → MV D W E S) (hm : ∀ x, (moved x).weigh wf wv = x.weigh wf wv) :
    ∀ (deps : List (Expr LB)) (ds : List (DepArg D W E S)) (m : LMem D W E S), Rel2 (Den Θ m) deps (ds.map argVal) → (∀ e ∈ deps, e.cat = .lv) →
    ∀ (rs : List (Expr LB)) (m' : LMem D W E S), ensureAllM (lang Θ moved) deps m = some (rs, m') →
    Copying (MV.weigh wf wv) m m' (ds.map (ensureCopies wf wv)).sum
  | [], [], m, _, _, rs, m', h => by
    simp only [ensureAllM, Option.some.injEq, Prod.mk.injEq] at h
    rw [← h.2]
    exact Copying.refl _ _
  | e :: es, d :: ds, m, hd, hlv, rs, m', h => by
    have h1 := ensureLazyM_spec Θ moved e d m hd.1 (hlv e (by simp))
    rcases he : ensureLazy d with _ | o
    · simp only [he] at h1
      simp only [ensureAllM, h1, reduceCtorEq] at h
    simp only [he] at h1
    obtain ⟨a, m1, h2, mk⟩ := h1
    have c1 := ensureLazyM_copying Θ moved hm e d m hd.1 (hlv e (by simp)) _ _ h2
    have k1 := mk.noMoves (by simpa using hlv e (by simp))
    simp only [ensureAllM, h2] at h
    rcases hes : ensureAllM (lang Θ moved) es m1 with _ | ⟨xs, m2⟩
    · simp only [hes, reduceCtorEq] at h
    simp only [hes, Option.some.injEq, Prod.mk.injEq] at h
    have c2 := ensureAllM_copying Θ moved hm es ds m1 (rel2_den_keeps k1 hd.2 (by simp)) (fun e' he' => hlv e' (by simp [he'])) _ _ hes
    rw [← h.2]
    exact c1.trans c2

/-- What the objects made by `ensure_lazy` weigh. -/
theorem ensureAll_weigh [CxxData D] : ∀ (ds : List (DepArg D W E S)) (os : List (Obj D W E S)), ensureAll ds = some os →
    (ds.map (ensureCopies wf wv)).sum + 5 * Obj.weighs wf wv os = ((ds.map argVal).map (depCopies wf wv)).sum
  | [], os, h => by
    simp only [ensureAll, Option.some.injEq] at h
    subst h
    rfl
  | d :: ds, os, h => by
    rcases h1 : ensureLazy d with _ | x
    · simp [ensureAll, h1] at h
    rcases h2 : ensureAll ds with _ | xs
    · simp [ensureAll, h1, h2] at h
    simp only [ensureAll, h1, h2, Option.some.injEq] at h
    subst h
    have ih := ensureAll_weigh ds xs h2
    have h3 : ensureCopies wf wv d + 5 * Obj.weigh wf wv x = depCopies wf wv (argVal d) := by
      rcases d with v | u | o'
      · have : ensureLazy (.value v : DepArg D W E S) = some (.lazyValue v false) := rfl
        rw [this] at h1
        cases h1
        simp only [ensureCopies, Obj.weigh, argVal, depCopies]
        omega
      · have : ensureLazy (.function u : DepArg D W E S) = if u.ret = .void then none
            else some (detailLazy (.wrapDep u) [.lazyValue (.data CxxData.zero) true]) := rfl
        rw [this] at h1
        split at h1
        · simp at h1
        · cases h1
          simp only [ensureCopies, weigh_detailLazy, Obj.weighs, Obj.weigh, argVal, depCopies, MV.weigh]
          omega
      · have hx : x = o' := by
          simp only [ensureLazy] at h1
          split at h1 <;> simp_all
        subst hx
        simp only [ensureCopies, argVal, depCopies]
        omega
    simp only [List.map_cons, List.sum_cons, Obj.weighs]
    omega

theorem pigroLazyM_copying [CxxData D] (Θ : Empties D W E S) (moved : MV D W E S → MV D W E S) (hm : ∀ x, (moved x).weigh wf wv = x.weigh wf wv) (f : Expr LB)
    (deps : List (Expr LB)) (u : UFn D W E S) (ds : List (DepArg D W E S)) (m : LMem D W E S) (hf : Den Θ m f (.user u)) (hd : Rel2 (Den Θ m) deps (ds.map argVal))
    (hx : Apart (f :: deps)) (r : Expr LB) (m' : LMem D W E S) (h : pigroLazyM (lang Θ moved) f deps m = some (r, m')) :
    Copying (MV.weigh wf wv) m m' (((f :: deps).map (pass (MV.weigh wf wv) m)).sum + 7 * wf u + ((ds.map argVal).map (depCopies wf wv)).sum) := by
  obtain ⟨p1, p2, p3, p4⟩ := params_spec Θ moved (f :: deps) (.user u :: ds.map argVal) m ⟨hf, hd⟩ hx
  have cp : Copying (MV.weigh wf wv) m (decayAll (lang Θ moved).toLang (f :: deps) m).2 _ := Copying.decayAll (Λ := (lang Θ moved).toLang) hm (f :: deps) m fun e he => by
    obtain ⟨x, -, h⟩ := rel2_mem (P := Den Θ m) (xs := f :: deps) (ys := .user u :: ds.map argVal) ⟨hf, hd⟩ e he
    exact h.1
  rcases hps : (decayAll (lang Θ moved) (f :: deps) m).1.map Expr.named with _ | ⟨fp, dps⟩
  · rw [hps] at p1
    exact p1.elim
  rw [hps] at p1 p2
  obtain ⟨a1, m1, h1, mk1⟩ := regularizedM_spec Θ moved fp u _ p1.1
  have c1 := build_copying Θ moved hm .front [fp] [.user u] _ _ _ ⟨p1.1, trivial⟩ (by simp [Apart]) _ _ h1
  have k1 := mk1.noMoves (by simpa using (p2 fp (by simp)).1)
  have hden := rel2_den_keeps k1 p1.2 (by simp)
  have ha := ensureAllM_spec Θ moved dps ds m1 hden fun e he => (p2 e (by simp [he])).1
  simp only [pigroLazyM, hps, h1] at h
  rcases hes : ensureAll ds with _ | os
  · simp only [hes] at ha
    simp only [ha, reduceCtorEq] at h
  simp only [hes] at ha
  obtain ⟨es, m2, h2, ma⟩ := ha
  have c2 := ensureAllM_copying Θ moved hm dps ds m1 hden (fun e he => (p2 e (by simp [he])).1) _ _ h2
  have hap : Apart ((⟨Θ.base (.func (.regularized u)), false, false, .xv, a1⟩ : Expr LB) :: es) := by
    refine List.pairwise_cons.2 ⟨?_, ma.order.imp fun h _ => by omega⟩
    intro e he _
    have := (ma.obj e he).2.1
    have := mk1.lt
    simp only
    omega
  have hrf := (mk1.den (Θ := Θ) .xv false false).keeps ma.keeps (by simp)
  obtain ⟨a3, m3, h3, mk3⟩ := detailLazyM_spec Θ moved ⟨Θ.base (.func (.regularized u)), false, false, .xv, a1⟩ es (.regularized u) os m2 hrf ma.den hap
  have hxv : ∀ e ∈ (⟨Θ.base (.func (.regularized u)), false, false, .xv, a1⟩ : Expr LB) :: es, e.cat = .xv ∧ e.c = false := by
    intro e he
    rcases List.mem_cons.1 he with rfl | he
    · exact ⟨rfl, rfl⟩
    · exact ⟨(ma.obj e he).1, ma.nonconst e he⟩
  have c3 := detailLazyM_copying Θ moved hm ⟨Θ.base (.func (.regularized u)), false, false, .xv, a1⟩ es (.regularized u) os m2 hrf ma.den hap hxv _ _ h3
  obtain ⟨a4, m4, h4, mk4⟩ := unwrapM_spec Θ moved (Expr.named ⟨Θ.base (.obj (detailLazy (.regularized u) os)), false, false, .xv, a3⟩) _ m3 (mk3.den .lv false false)
  have c4 := build_copying Θ moved hm .back [Expr.named ⟨Θ.base (.obj (detailLazy (.regularized u) os)), false, false, .xv, a3⟩] [_] _ _ m3 ⟨mk3.den .lv false false, trivial⟩ (by simp [Apart]) _ _ h4
  obtain ⟨a5, m5, h5, mk5⟩ := unregularizedM_spec Θ moved
    (Expr.named ⟨Θ.base (.obj (.unwrapped (detailLazy (.regularized u) os))), false, false, .xv, a4⟩) _ m4 (mk4.den .lv false false)
  have c5 := build_copying Θ moved hm .front [Expr.named ⟨Θ.base (.obj (.unwrapped (detailLazy (.regularized u) os))), false, false, .xv, a4⟩] [_] _ _ m4
    ⟨mk4.den .lv false false, trivial⟩ (by simp [Apart]) _ _ h5
  simp only [h2, h3, h4, h5, Option.some.injEq, Prod.mk.injEq] at h
  rw [← h.2]
  refine ((((((cp.trans c1).trans c2).trans c3).trans c4).trans c5).cast ?_).killRange _ _
  have e1 := ensureAll_weigh (wf := wf) (wv := wv) ds os hes
  have q1 : pass (MV.weigh wf wv) (decayAll (lang Θ moved).toLang (f :: deps) m).2 fp = wf u := by
    rw [pass_lv (p2 fp (by simp)).1, p1.1.2.2]
    rfl
  have q2 : pass (MV.weigh wf wv) m3 (Expr.named ⟨Θ.base (.obj (detailLazy (.regularized u) os)), false, false, .xv, a3⟩) = wf u + Obj.weighs wf wv os := by
    rw [pass_lv rfl]
    show MV.weigh wf wv (m3.get a3) = _
    rw [mk3.get]
    simp only [MV.weigh, weigh_detailLazy]
  have q3 : pass (MV.weigh wf wv) m4 (Expr.named ⟨Θ.base (.obj (.unwrapped (detailLazy (.regularized u) os))), false, false, .xv, a4⟩) = wf u + Obj.weighs wf wv os := by
    rw [pass_lv rfl]
    show MV.weigh wf wv (m4.get a4) = _
    rw [mk4.get]
    simp only [MV.weigh, Obj.weigh, weigh_detailLazy]
  have q4 : Obj.weigh wf wv (detailLazy (.regularized u) os) = wf u + Obj.weighs wf wv os := weigh_detailLazy _ _
  simp only [List.map_cons, List.map_nil, List.sum_cons, List.sum_nil, q1, q2, q3, q4, MV.weigh, Obj.weigh] at *
  omega

theorem copied_of {m m' : LMem D W E S} {n : Nat} (h : Copying (MV.weigh wf wv) m m' n) : Copied wf wv m m' n := by
  obtain ⟨l, ⟨new, h1, h2⟩, -, h3⟩ := h.made
  refine ⟨new, h1, ?_⟩
  rw [← h3, ← h2]
  congr 1
  simp only [Cxx.copied, List.filter_map, List.map_map]
  rfl

/-! ### Programs -/

theorem placeArgs_copying (Λ : LLang D W E S) (vars : List Nat) : ∀ (as : List (ArgRef D W E S)) (m : LMem D W E S) (es : List (Expr LB)) (m' : LMem D W E S),
    placeArgs Λ vars as m = some (es, m') → Copying (MV.weigh wf wv) m m' 0
  | [], m, es, m', h => by
    simp only [placeArgs, Option.some.injEq, Prod.mk.injEq] at h
    rw [← h.2]
    exact Copying.refl _ _
  | a :: as, m, es, m', h => by
    simp only [placeArgs] at h
    split at h
    · simp at h
    rename_i e m1 h1
    split at h
    · simp at h
    rename_i es2 m2 h2
    simp only [Option.some.injEq, Prod.mk.injEq] at h
    have ih := placeArgs_copying Λ vars as m1 es2 m2 h2
    rw [← h.2]
    have c1 : Copying (MV.weigh wf wv) m m1 0 := by
      rcases a with v | u | i
      · simp only [Option.some.injEq, Prod.mk.injEq] at h1
        rw [← h1.2]
        exact Copying.alloc _ _ _
      · simp only [Option.some.injEq, Prod.mk.injEq] at h1
        rw [← h1.2]
        exact Copying.alloc _ _ _
      · simp only [Option.map_eq_some_iff, Prod.mk.injEq] at h1
        obtain ⟨a, -, -, h1⟩ := h1
        rw [← h1]
        exact Copying.refl _ _
    exact c1.trans ih

/-- What passing the arguments copies, and what is copied afterwards. -/
theorem placeArgs_sum [CxxData D] (Λ : LLang D W E S) (t : MState D W E S) (os : List (Obj D W E S)) (hv : Rel2 (VarRel t.mem) t.vars os) (M : LMem D W E S)
    (hM : ∀ a < t.mem.next, (M.get a).weigh wf wv = (t.mem.get a).weigh wf wv) : ∀ (as : List (ArgRef D W E S)) (m : LMem D W E S) (es : List (Expr LB)) (m' : LMem D W E S)
    (ds : List (DepArg D W E S)), placeArgs Λ t.vars as m = some (es, m') → resolveAll os as = some ds →
    (es.map (pass (MV.weigh wf wv) M)).sum + ((ds.map argVal).map (depCopies wf wv)).sum = (as.map (argCopies wf wv t)).sum
  | [], m, es, m', ds, h, hr => by
    simp only [placeArgs, Option.some.injEq, Prod.mk.injEq] at h
    simp only [resolveAll, Option.some.injEq] at hr
    rw [← h.1, ← hr]
    rfl
  | a :: as, m, es, m', ds, h, hr => by
    simp only [placeArgs] at h
    split at h
    · simp at h
    rename_i e m1 h1
    split at h
    · simp at h
    rename_i es2 m2 h2
    simp only [Option.some.injEq, Prod.mk.injEq] at h
    rcases hd : a.resolve os with _ | d
    · simp [resolveAll, hd] at hr
    rcases hds : resolveAll os as with _ | ds2
    · simp [resolveAll, hds] at hr
    simp only [resolveAll, hd, hds, Option.some.injEq] at hr
    have ih := placeArgs_sum Λ t os hv M hM as m1 es2 m2 ds2 h2 hds
    rw [← h.1, ← hr]
    have c1 : pass (MV.weigh wf wv) M e + depCopies wf wv (argVal d) = argCopies wf wv t a := by
      rcases a with v | u | i
      · simp only [Option.some.injEq, Prod.mk.injEq] at h1
        simp only [ArgRef.resolve, Option.some.injEq] at hd
        rw [← h1.1, ← hd]
        simp [pass, argVal, depCopies, argCopies]
      · simp only [Option.some.injEq, Prod.mk.injEq] at h1
        simp only [ArgRef.resolve, Option.some.injEq] at hd
        rw [← h1.1, ← hd]
        simp [pass, argVal, depCopies, argCopies]
      · simp only [Option.map_eq_some_iff, Prod.mk.injEq] at h1
        obtain ⟨x, h3, h4, -⟩ := h1
        rcases rel2_get hv i with ⟨g1, -⟩ | ⟨x', o, g1, g2, g3⟩
        · rw [g1] at h3
          simp at h3
        · rw [g1, Option.some.injEq] at h3
          subst h3
          simp only [ArgRef.resolve, g2, Option.map_some, Option.some.injEq] at hd
          rw [← h4, ← hd, pass_lv rfl]
          show MV.weigh wf wv (M.get x') + _ = _
          rw [hM _ g3.1, g3.2.1]
          simp only [argVal, depCopies, argCopies, g1, g3.2.1, MV.weigh]
          omega
    simp only [List.map_cons, List.sum_cons]
    omega

theorem depArg_weigh [CxxData D] (t : MState D W E S) (os : List (Obj D W E S)) (hv : Rel2 (VarRel t.mem) t.vars os) (a : ArgRef D W E S) (d : DepArg D W E S) (o : Obj D W E S)
    (hd : a.resolve os = some d) (ho : ensureLazy d = some o) : o.weigh wf wv = argWeight wf wv (t.vars.map fun a => (t.mem.get a).weigh wf wv) a := by
  rcases a with v | u | i
  · simp only [ArgRef.resolve, Option.some.injEq] at hd
    subst hd
    have : ensureLazy (.value v : DepArg D W E S) = some (.lazyValue v false) := rfl
    rw [this] at ho
    cases ho
    rfl
  · simp only [ArgRef.resolve, Option.some.injEq] at hd
    subst hd
    have : ensureLazy (.function u : DepArg D W E S) = if u.ret = .void then none
        else some (detailLazy (.wrapDep u) [.lazyValue (.data CxxData.zero) true]) := rfl
    rw [this] at ho
    split at ho
    · simp at ho
    · cases ho
      simp [weigh_detailLazy, Obj.weighs, Obj.weigh, argWeight, MV.weigh]
  · rcases rel2_get hv i with ⟨-, g2⟩ | ⟨x, o', g1, g2, g3⟩
    · simp [ArgRef.resolve, g2] at hd
    · simp only [ArgRef.resolve, g2, Option.map_some, Option.some.injEq] at hd
      subst hd
      have : o = o' := by
        simp only [ensureLazy] at ho
        split at ho <;> simp_all
      subst this
      simp [argWeight, List.getD_eq_getElem?_getD, g1, g3.2.1, MV.weigh]

theorem deps_weigh [CxxData D] (t : MState D W E S) (os : List (Obj D W E S)) (hv : Rel2 (VarRel t.mem) t.vars os) : ∀ (as : List (ArgRef D W E S)) (ds : List (DepArg D W E S))
    (xs : List (Obj D W E S)), resolveAll os as = some ds → ensureAll ds = some xs →
    Obj.weighs wf wv xs = (as.map (argWeight wf wv (t.vars.map fun a => (t.mem.get a).weigh wf wv))).sum
  | [], ds, xs, h, h' => by
    simp only [resolveAll, Option.some.injEq] at h
    subst h
    simp only [ensureAll, Option.some.injEq] at h'
    subst h'
    rfl
  | a :: as, ds, xs, h, h' => by
    rcases hd : a.resolve os with _ | d
    · simp [resolveAll, hd] at h
    rcases hds : resolveAll os as with _ | ds2
    · simp [resolveAll, hds] at h
    simp only [resolveAll, hd, hds, Option.some.injEq] at h
    subst h
    rcases h1 : ensureLazy d with _ | x
    · simp [ensureAll, h1] at h'
    rcases h2 : ensureAll ds2 with _ | xs2
    · simp [ensureAll, h1, h2] at h'
    simp only [ensureAll, h1, h2, Option.some.injEq] at h'
    subst h'
    rw [Obj.weighs, depArg_weigh t os hv a d x hd h1, deps_weigh t os hv as ds2 xs2 hds h2]
    rfl

/-- One operation that makes a lazy function. -/
theorem stepM_copying [CxxData D] (Θ : Empties D W E S) (moved : MV D W E S → MV D W E S) (hm : ∀ x, (moved x).weigh wf wv = x.weigh wf wv) (byRef : Bool)
    (t : MState D W E S) (s : State D W E S) (hs : Sim t s) (f : UFn D W E S) (args : List (ArgRef D W E S))
    (h : (stepM (lang Θ moved) byRef t (.mk f args)).1 = .unit) :
    Copying (MV.weigh wf wv) t.mem (stepM (lang Θ moved) byRef t (.mk f args)).2.mem (7 * wf f + (args.map (argCopies wf wv t)).sum) ∧
    (stepM (lang Θ moved) byRef t (.mk f args)).2.vars.map (fun a => ((stepM (lang Θ moved) byRef t (.mk f args)).2.mem.get a).weigh wf wv) =
      (t.vars.map fun a => (t.mem.get a).weigh wf wv) ++ [wf f + (args.map (argWeight wf wv (t.vars.map fun a => (t.mem.get a).weigh wf wv))).sum] := by
  have ka : Keeps (fun _ => False) t.mem (t.mem.alloc (.user f)) := Keeps.alloc (Keeps.refl _ _) _
  have na : (t.mem.alloc (.user f)).next = t.mem.next + 1 := rfl
  have hv : Rel2 (fun a o => a < t.mem.next ∧ VarRel (t.mem.alloc (.user f)) a o) t.vars s.vars :=
    hs.vars.imp fun a o h => ⟨h.1, (vars_keeps ka (as := [a]) (os := [o]) ⟨h, trivial⟩).1⟩
  have hp := placeArgs_spec Θ moved t.vars s.vars t.mem.next args (t.mem.alloc (.user f)) (by omega) hv
  rcases hr : resolveAll s.vars args with _ | ds
  · simp only [hr] at hp
    simp [stepM, hp] at h
  simp only [hr] at hp
  obtain ⟨es, m1, h1, pl⟩ := hp
  have hf : Den Θ m1 ⟨(lang Θ moved).base (.user f), false, false, .xv, t.mem.next⟩ (.user f : MV D W E S) :=
    Den.keeps (m := t.mem.alloc (.user f)) ⟨by rw [na]; simp only; omega, rfl, alloc_get _ _⟩ pl.keeps (by simp)
  have hap : Apart ((⟨(lang Θ moved).base (.user f), false, false, .xv, t.mem.next⟩ : Expr LB) :: es) := by
    refine List.pairwise_cons.2 ⟨?_, pl.apart⟩
    intro x hx _
    rcases hc : x.cat with _ | _
    · have := pl.lv x hx hc
      simp only
      omega
    · have := pl.xv x hx hc
      simp only
      omega
  have hl := pigroLazyM_spec Θ moved ⟨(lang Θ moved).base (.user f), false, false, .xv, t.mem.next⟩ es f ds m1 hf pl.den hap
  rcases hmk : pigroLazy f ds with _ | o
  · simp only [hmk] at hl
    simp [stepM, h1, hl] at h
  simp only [hmk] at hl
  obtain ⟨a, m2, h2, mk⟩ := hl
  have c0 : Copying (MV.weigh wf wv) t.mem m1 0 := (Copying.alloc _ _ _).trans (placeArgs_copying (lang Θ moved) t.vars args _ es m1 h1)
  have c1 := pigroLazyM_copying Θ moved hm _ es f ds m1 hf pl.den hap _ _ h2
  have e1 := placeArgs_sum (wf := wf) (wv := wv) (lang Θ moved) t s.vars hs.vars m1 c0.same args _ es m1 ds h1 hr
  have hstep : stepM (lang Θ moved) byRef t (.mk f args) = (.unit, ⟨t.vars ++ [a], m2.killRange t.mem.next m1.next⟩) := by
    simp only [stepM, h1, h2]
  rw [hstep]
  have hpass : pass (MV.weigh wf wv) m1 (⟨(lang Θ moved).base (.user f), false, false, .xv, t.mem.next⟩ : Expr LB) = 0 := by simp [pass]
  have c2 : Copying (MV.weigh wf wv) t.mem m2 (7 * wf f + (args.map (argCopies wf wv t)).sum) := (c0.trans c1).cast (by
    rw [List.map_cons, List.sum_cons, hpass, ← e1]
    omega)
  refine ⟨c2.killRange _ _, ?_⟩
  rw [List.map_append]
  congr 1
  · apply List.map_congr_left
    intro x hx
    have hxl : x < t.mem.next := by
      obtain ⟨o, -, h⟩ := rel2_mem hs.vars x hx
      exact h.1
    exact c2.same x hxl
  · show [MV.weigh wf wv (m2.get a)] = _
    rw [mk.get]
    rcases hes : ensureAll ds with _ | xs
    · simp [pigroLazy, hes] at hmk
    · simp only [pigroLazy, hes, Option.some.injEq] at hmk
      subst hmk
      simp only [MV.weigh, Obj.weigh, weigh_detailLazy, deps_weigh t s.vars hs.vars args ds xs hr hes]

/-- Such an operation is well-formed. -/
theorem stepM_valid [CxxData D] (Θ : Empties D W E S) (moved : MV D W E S → MV D W E S) (byRef : Bool)
    (t : MState D W E S) (s : State D W E S) (hs : Sim t s) (hun : ∀ o ∈ s.vars, o.caps = ⟨true, true⟩) (f : UFn D W E S) (args : List (ArgRef D W E S))
    (hargs : ∀ a ∈ args, match a with | .value _ => True | .function u => u.ret ≠ .void | .var i => i < s.vars.length) :
    (stepM (lang Θ moved) byRef t (.mk f args)).1 = .unit ∧ (∀ o ∈ (step (written byRef) s (.mk f args)).2.vars, o.caps = ⟨true, true⟩) ∧
      (step (written byRef) s (.mk f args)).2.vars.length = s.vars.length + 1 := by
  have key : ∀ as : List (ArgRef D W E S), (∀ a ∈ as, a ∈ args) → ∃ ds os, resolveAll s.vars as = some ds ∧ ensureAll ds = some os := by
    intro as
    induction as with
    | nil => intro _; exact ⟨[], [], rfl, rfl⟩
    | cons a as ih =>
      intro hin
      obtain ⟨ds, os, i1, i2⟩ := ih fun a h => hin a (by simp [h])
      have ha := hargs a (hin a (by simp))
      have : ∃ d o, a.resolve s.vars = some d ∧ ensureLazy d = some o := by
        rcases a with v | u | i
        · exact ⟨.value v, .lazyValue v false, rfl, rfl⟩
        · refine ⟨.function u, detailLazy (.wrapDep u) [.lazyValue (.data CxxData.zero) true], rfl, ?_⟩
          have : ensureLazy (.function u : DepArg D W E S) = if u.ret = .void then none
              else some (detailLazy (.wrapDep u) [.lazyValue (.data CxxData.zero) true]) := rfl
          rw [this, if_neg ha]
        · simp only at ha
          refine ⟨.lazyObj s.vars[i], s.vars[i], by simp [ArgRef.resolve, ha], ?_⟩
          have hc := hun s.vars[i] (by simp)
          have h1 : ensureSelect (DepArg.lazyObj s.vars[i]).caps = some .asIs := by
            simp only [DepArg.caps, hc]; rfl
          simp only [ensureLazy, h1]
      obtain ⟨d, o, j1, j2⟩ := this
      exact ⟨d :: ds, o :: os, by simp only [resolveAll, j1, i1], by simp only [ensureAll, j2, i2]⟩
  obtain ⟨ds, os, h1, h2⟩ := key args fun _ h => h
  obtain ⟨h3, -⟩ := stepM_spec Θ moved byRef t s hs (.mk f args)
  have hst : step (written byRef) s (.mk f args) = (.unit, { s with vars := s.vars ++ [.unregularized (.unwrapped (detailLazy (.regularized f) os))] }) := by
    simp only [step, h1, Option.bind_some, pigroLazy, h2]
  rw [hst] at h3 ⊢
  refine ⟨by rw [h3]; rfl, ?_, by simp⟩
  intro o ho
  rcases List.mem_append.1 ho with ho | ho
  · exact hun o ho
  · rw [List.mem_singleton] at ho
    subst ho
    rfl

theorem argCopies_split [CxxData D] (t : MState D W E S) : ∀ args : List (ArgRef D W E S),
    (args.map (argCopies wf wv t)).sum = 7 * (args.map (argWeight wf wv (t.vars.map fun a => (t.mem.get a).weigh wf wv))).sum +
      (args.map (onceMore wf wv)).sum
  | [] => rfl
  | a :: args => by
    have ih := argCopies_split t args
    have h : argCopies wf wv t a = 7 * argWeight wf wv (t.vars.map fun a => (t.mem.get a).weigh wf wv) a +
        onceMore wf wv a := by
      rcases a with v | u | i
      · simp only [argCopies, argWeight, onceMore]; omega
      · simp only [argCopies, argWeight, onceMore]; omega
      · simp only [argCopies, argWeight, onceMore, List.getD_eq_getElem?_getD, List.getElem?_map]
        rcases t.vars[i]? with _ | a
        · simp
        · simp
    simp only [List.map_cons, List.sum_cons, ih, h]
    omega

theorem makes_copying [CxxData D] (Θ : Empties D W E S) (moved : MV D W E S → MV D W E S) (hm : ∀ x, (moved x).weigh wf wv = x.weigh wf wv) (byRef : Bool) :
    ∀ (l : List (UFn D W E S × List (ArgRef D W E S))) (t : MState D W E S) (s : State D W E S), Sim t s → (∀ o ∈ s.vars, o.caps = ⟨true, true⟩) → Valid s.vars.length l →
    (∀ x ∈ (runM (lang Θ moved) byRef t (makes l)).1, x = .unit) ∧
    Copying (MV.weigh wf wv) t.mem (runM (lang Θ moved) byRef t (makes l)).2.mem (totalCopies wf wv (t.vars.map fun a => (t.mem.get a).weigh wf wv) l)
  | [], t, s, _, _, _ => ⟨by simp [makes, runM], Copying.refl _ _⟩
  | (f, args) :: rest, t, s, hs, hun, hval => by
    obtain ⟨h1, h2, h3⟩ := stepM_valid Θ moved byRef t s hs hun f args hval.1
    obtain ⟨c1, c2⟩ := stepM_copying (wf := wf) (wv := wv) Θ moved hm byRef t s hs f args h1
    obtain ⟨-, hs', -⟩ := stepM_spec Θ moved byRef t s hs (.mk f args)
    obtain ⟨i1, i2⟩ := makes_copying Θ moved hm byRef rest _ _ hs' h2 (by rw [h3]; exact hval.2)
    rw [c2] at i2
    refine ⟨?_, ?_⟩
    · intro x hx
      rcases List.mem_cons.1 hx with rfl | hx
      · exact h1
      · exact i1 x hx
    · refine (c1.trans i2).cast ?_
      rw [argCopies_split, totalCopies]
      omega

end Pigro.LM
