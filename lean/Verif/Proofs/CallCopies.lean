import Verif.Spec.CallCopies
import Verif.Proofs.LazyRun
import Verif.Proofs.Copies
import Verif.Proofs.HistoryFresh
import Verif.Proofs.LazyLog
/-!
# Lemmas: what a call of a lazy function copies
-/
namespace Pigro.Cxx
variable {B V L R : Type}

/-- `m'` comes after `m`: no object has changed its weight, and what was made by constructors weighs `n`. -/
structure Steps (w : V → Nat) (m m' : Mem V L) (n : Nat) : Prop where
  next : m.next ≤ m'.next
  same : ∀ a < m.next, w (m'.get a) = w (m.get a)
  made : ∃ new, m'.inits = m.inits ++ new ∧ (∀ i ∈ new, i.dst < m'.next) ∧ (new.map fun i => w (m'.get i.dst)).sum = n

section
variable {w : V → Nat} {m m1 m2 : Mem V L} {n n' : Nat}

theorem Steps.of_eq (hn : m.next ≤ m1.next) (hs : ∀ a < m.next, w (m1.get a) = w (m.get a)) (hi : m1.inits = m.inits) : Steps w m m1 0 :=
  ⟨hn, hs, [], by simp [hi], by simp, rfl⟩

theorem Steps.refl (w : V → Nat) (m : Mem V L) : Steps w m m 0 := Steps.of_eq (Nat.le_refl _) (fun _ _ => rfl) rfl

theorem Steps.trans (h : Steps w m m1 n) (h' : Steps w m1 m2 n') : Steps w m m2 (n + n') := by
  obtain ⟨new, a1, a2, a3⟩ := h.made
  obtain ⟨new', b1, b2, b3⟩ := h'.made
  have hn := h.next
  have hn' := h'.next
  refine ⟨by omega, fun a ha => by rw [h'.same a (by omega), h.same a ha], new ++ new', by rw [b1, a1, List.append_assoc], ?_, ?_⟩
  · intro i hi
    rcases List.mem_append.1 hi with hi | hi
    · have := a2 i hi; omega
    · exact b2 i hi
  · rw [List.map_append, List.sum_append, b3, ← a3]
    congr 1
    apply congrArg
    apply List.map_congr_left
    intro i hi
    exact h'.same _ (a2 i hi)

theorem Steps.cast (h : Steps w m m1 n) (e : n = n') : Steps w m m1 n' := e ▸ h

theorem Steps.alloc (w : V → Nat) (m : Mem V L) (x : V) : Steps w m (m.alloc x) 0 :=
  Steps.of_eq (by simp [Mem.alloc]) (fun a ha => by simp only [Mem.alloc]; rw [if_neg (by omega)]) rfl

theorem Steps.killRange (h : Steps w m m1 n) (lo hi : Nat) : Steps w m (m1.killRange lo hi) n := ⟨h.next, h.same, h.made⟩

theorem Steps.kill (h : Steps w m m1 n) (a : Nat) : Steps w m (m1.kill a) n := ⟨h.next, h.same, h.made⟩

theorem Steps.setWorld (h : Steps w m m1 n) (x : L) : Steps w m ({ m1 with world := x } : Mem V L) n := ⟨h.next, h.same, h.made⟩

theorem Steps.write (h : Steps w m m1 n) (a : Nat) (x : V) (hx : w x = w (m1.get a)) : Steps w m (m1.write a x) n := by
  have key : ∀ b, w ((m1.write a x).get b) = w (m1.get b) := by
    intro b
    simp only [Mem.write]
    split
    · rename_i h; rw [h, hx]
    · rfl
  obtain ⟨new, a1, a2, a3⟩ := h.made
  exact ⟨h.next, fun b hb => by rw [key, h.same b hb], new, a1, a2, by simp only [key]; exact a3⟩

theorem Steps.initFrom {Λ : Lang B V} (hm : ∀ x, w (Λ.moved x) = w x) (e : Expr B) (m : Mem V L) :
    Steps w m (Λ.initFrom e m) (w (m.get e.addr)) ∧ w ((Λ.initFrom e m).get m.next) = w (m.get e.addr) ∧ (Λ.initFrom e m).next = m.next + 1 := by
  have key : ∀ b, w ((Λ.initFrom e m).get b) = if b = m.next then w (m.get e.addr) else w (m.get b) := by
    intro b
    rcases hcat : e.cat with _ | _ <;> rcases hc : e.c with _ | _ <;> simp only [Lang.initFrom, hcat, hc, Mem.alloc, Mem.write]
    case xv.false =>
      by_cases h1 : b = e.addr
      · rw [if_pos h1, hm, h1]
        simp
      · rw [if_neg h1]
        split <;> rfl
    all_goals split <;> rfl
  have hn : (Λ.initFrom e m).next = m.next + 1 := by
    rcases hcat : e.cat with _ | _ <;> rcases hc : e.c with _ | _ <;> simp [Lang.initFrom, hcat, hc, Mem.alloc, Mem.write]
  have hi : ∃ b, (Λ.initFrom e m).inits = m.inits ++ [⟨b, e.addr, m.next⟩] := by
    rcases hcat : e.cat with _ | _ <;> rcases hc : e.c with _ | _ <;> simp [Lang.initFrom, hcat, hc]
  obtain ⟨b, hi⟩ := hi
  refine ⟨⟨by omega, fun a ha => by rw [key, if_neg (by omega)], _, hi, ?_, ?_⟩, by rw [key, if_pos rfl], hn⟩
  · intro i h
    rw [List.mem_singleton] at h
    subst h
    simp only
    omega
  · simp only [List.map_cons, List.map_nil, List.sum_cons, List.sum_nil, key, if_true]
    omega

/-- Decayed copies, counted by what they are made from. -/
theorem Steps.decayAll {Λ : Lang B V} (hm : ∀ x, w (Λ.moved x) = w x) : ∀ (es : List (Expr B)) (m : Mem V L), (∀ e ∈ es, e.addr < m.next) →
    Steps w m (decayAll Λ es m).2 (es.map fun e => w (m.get e.addr)).sum
  | [], m, _ => Steps.refl w m
  | e :: es, m, h => by
    obtain ⟨h1, -, h3⟩ := Steps.initFrom hm e m
    have ih := Steps.decayAll hm es (Λ.initFrom e m) (fun e' he' => by have := h e' (by simp [he']); omega)
    refine (h1.trans ih).cast ?_
    rw [List.map_cons, List.sum_cons]
    congr 2
    apply List.map_congr_left
    intro e' he'
    exact h1.same _ (h e' (by simp [he']))

/-- Same, counted by what they are. -/
theorem Steps.params {Λ : Lang B V} (hm : ∀ x, w (Λ.moved x) = w x) : ∀ (es : List (Expr B)) (m : Mem V L),
    Steps w m (Cxx.decayAll Λ es m).2 ((Cxx.decayAll Λ es m).1.map fun p => w ((Cxx.decayAll Λ es m).2.get p.addr)).sum
  | [], m => Steps.refl w m
  | e :: es, m => by
    obtain ⟨h1, h2, h3⟩ := Steps.initFrom hm e m
    have ih := Steps.params hm es (Λ.initFrom e m)
    refine (h1.trans ih).cast ?_
    simp only [Cxx.decayAll, decayCopy, List.map_cons, List.sum_cons]
    rw [ih.same _ (by omega), h2]

theorem Steps.captureAll {Λ : Lang B V} (hm : ∀ x, w (Λ.moved x) = w x) : ∀ (es : List (Expr B)) (m : Mem V L), (∀ e ∈ es, e.addr < m.next) →
    Steps w m (captureAll Λ es m).2 ((rvalues es).map fun e => w (m.get e.addr)).sum
  | [], m, _ => Steps.refl w m
  | e :: es, m, h => by
    rw [rvalues_cons, List.map_append, List.sum_append]
    rcases hcat : e.cat with _ | _
    · have h0 : (fwdCapture Λ e m).2 = m := by simp [fwdCapture, deduceFwd, hcat]
      have ih := Steps.captureAll hm es m (fun e' he' => h e' (by simp [he']))
      simp only [Cxx.captureAll, h0]
      simpa [rvalues, hcat] using ih
    · have h0 : (fwdCapture Λ e m).2 = Λ.initFrom e m := by simp [fwdCapture, deduceFwd, hcat]
      obtain ⟨h1, -, h3⟩ := Steps.initFrom hm e m
      have ih := Steps.captureAll hm es (Λ.initFrom e m) (fun e' he' => by have := h e' (by simp [he']); omega)
      simp only [Cxx.captureAll, h0]
      refine (h1.trans ih).cast ?_
      have hr : rvalues [e] = [e] := by simp [rvalues, hcat]
      rw [hr]
      simp only [List.map_cons, List.map_nil, List.sum_cons, List.sum_nil, Nat.add_zero]
      congr 2
      apply List.map_congr_left
      intro e' he'
      exact h1.same _ (h e' (by simp only [List.mem_cons]; exact .inr (List.mem_filter.1 he').1))

theorem Steps.materialise {Λ : Lang B V} {g : Got B} {m m' : Mem V L} {e : Expr B} (w : V → Nat) (h : materialise Λ g m = some (e, m')) : Steps w m m' 0 := by
  rcases g with _ | _ | x | x
  · simp [Cxx.materialise] at h
  · simp [Cxx.materialise] at h
  · simp only [Cxx.materialise, Option.some.injEq, Prod.mk.injEq] at h
    rw [← h.2]
    exact Steps.refl w m
  · simp only [Cxx.materialise, Option.some.injEq, Prod.mk.injEq] at h
    rw [← h.2]
    exact Steps.alloc w m _

theorem Steps.bindLocal {Λ : Lang B V} {g : Got B} {m m' : Mem V L} {e : Expr B} (w : V → Nat) (h : bindLocal Λ g m = some (e, m')) : Steps w m m' 0 ∧ e.cat = .lv := by
  simp only [Cxx.bindLocal, Option.map_eq_some_iff] at h
  obtain ⟨⟨e1, m1⟩, h1, h2⟩ := h
  simp only [Prod.mk.injEq] at h2
  rw [← h2.2, ← h2.1]
  exact ⟨Steps.materialise w h1, rfl⟩

theorem Steps.getAll [DecidableEq B] {Λ : Lang B V} (w : V → Nat) (t : Tup B) (c : Bool) (cat : Cat) (is : List Nat) : ∀ (m : Mem V L) (es : List (Expr B))
    (m' : Mem V L), getAll Λ t c cat is m = some (es, m') → Steps w m m' 0 := by
  induction is with
  | nil =>
    intro m es m' h
    simp only [Cxx.getAll, Option.some.injEq, Prod.mk.injEq] at h
    rw [← h.2]
    exact Steps.refl w m
  | cons i is ih =>
    intro m es m' h
    rw [Cxx.getAll] at h
    split at h
    · simp at h
    · rename_i e m1 h1
      split at h
      · simp at h
      · rename_i es1 m2 h2
        simp only [Option.some.injEq, Prod.mk.injEq] at h
        rw [← h.2]
        exact (Steps.materialise w h1).trans (ih _ _ _ h2)

/-- Up to the call of the code bound with `>>`. -/
theorem Steps.front [DecidableEq B] {Λ : Lang B V} (hm : ∀ x, w (Λ.moved x) = w x) (code : Code B V L R) (b : Bound B) (hd : b.dir = .front) (self : Expr Unit)
    (args : List (Expr B)) (m : Mem V L) (hlt : ∀ e ∈ args, e.addr < m.next) (r : R) (m' : Mem V L) (h : b.body Λ code self args m = some (r, m')) :
    ∃ fe es mk, Steps w m mk ((rvalues args).map fun e => w (m.get e.addr)).sum ∧ r = (code fe es mk).1 := by
  rw [Bound.body] at h
  split at h
  · simp at h
  · rename_i f m1 h1
    split at h
    · simp at h
    · rename_i t m2 h2
      obtain ⟨e1, c1⟩ := Steps.bindLocal w h1
      obtain ⟨e2, -⟩ := Steps.bindLocal w h2
      have s2 := e1.trans e2
      have n2 := s2.next
      simp only [hd, apply, applyImpl, bindBack] at h
      split at h
      · simp at h
      · rename_i es m4 h4
        simp only [BackBinder.call, Option.map_some, Option.some.injEq, Prod.mk.injEq] at h
        have hf : (fwdCapture Λ f m2).2 = m2 := by simp [fwdCapture, deduceFwd, c1]
        have s3 := Steps.captureAll hm args m2 (fun e he => by have := hlt e he; omega)
        rw [hf] at h4
        refine ⟨_, _, m4, ((s2.trans s3).trans (Steps.getAll w _ _ _ _ _ _ _ h4)).cast ?_, h.1.symm⟩
        simp only [Nat.zero_add, Nat.add_zero]
        apply congrArg
        apply List.map_congr_left
        intro e he
        exact s2.same _ (hlt e (List.mem_filter.1 he).1)

/-- Up to the call of the code bound with `<<`. -/
theorem Steps.back [DecidableEq B] {Λ : Lang B V} (hm : ∀ x, w (Λ.moved x) = w x) (code : Code B V L R) (b : Bound B) (hd : b.dir = .back) (self : Expr Unit)
    (args : List (Expr B)) (m : Mem V L) (hlt : ∀ e ∈ args, e.addr < m.next) (r : R) (m' : Mem V L) (h : b.body Λ code self args m = some (r, m')) :
    ∃ fe es mk, Steps w m mk (w (mk.get fe.addr) + (args.map fun e => w (m.get e.addr)).sum) ∧ fe.addr < mk.next ∧ r = (code fe es mk).1 := by
  rw [Bound.body] at h
  split at h
  · simp at h
  · rename_i f m1 h1
    split at h
    · simp at h
    · rename_i t m2 h2
      obtain ⟨e1, c1⟩ := Steps.bindLocal w h1
      obtain ⟨e2, -⟩ := Steps.bindLocal w h2
      have s2 := e1.trans e2
      have n2 := s2.next
      simp only [hd, apply, applyImpl, stdBindFront, decayCopy] at h
      split at h
      · simp at h
      · rename_i es m4 h4
        simp only [FrontBinder.call, Option.map_some, Option.some.injEq, Prod.mk.injEq] at h
        obtain ⟨s3, v3, n3⟩ := Steps.initFrom hm f m2
        have s4 := Steps.decayAll hm args (Λ.initFrom f m2) (fun e he => by have := hlt e he; omega)
        have s5 := Steps.getAll w _ _ _ _ _ _ _ h4
        have n4 := s4.next
        have n5 := s5.next
        refine ⟨_, _, m4, (((s2.trans s3).trans s4).trans s5).cast ?_, ?_, h.1.symm⟩
        · simp only [Nat.zero_add, Nat.add_zero]
          rw [s5.same _ (by omega), s4.same _ (by omega), v3]
          congr 2
          apply List.map_congr_left
          intro e he
          rw [s3.same _ (by have := hlt e he; omega), s2.same _ (hlt e he)]
        · simp only
          omega
end
end Pigro.Cxx

namespace Pigro.LM
open Cxx
variable {D W E S : Type}

/-- By-value parameters of code bound with `>>`. -/
theorem front_params {w : MV D W E S → Nat} {Λ : Lang LB (MV D W E S)} (hm : ∀ x, w (Λ.moved x) = w x) (b : Bound LB) (hd : b.dir = .front) (c : Bool) (cat : Cat)
    (args : List (Expr LB)) (m : LMem D W E S) (hlt : ∀ e ∈ args, e.addr < m.next) (ps : List (Expr LB)) (m' m'' : LMem D W E S)
    (h : b.call Λ noIdx (fun _ as m => valueParams Λ (fun ps m => ((.ok (ps, m) : Out E (List (Expr LB) × LMem D W E S)), m)) as m) c cat args m = .invoked (.ok (ps, m')) m'') :
    Steps w m m' (((rvalues args).map fun e => w (m.get e.addr)).sum + (ps.map fun p => w (m'.get p.addr)).sum) := by
  have hb := call_body Λ noIdx _ b c cat args m _ _ (fun e _ => by simp [noIdx]) h
  obtain ⟨fe, es, mk, s1, h1⟩ := Steps.front hm _ b hd _ args m hlt _ _ hb
  simp only [valueParams, Out.ok.injEq, Prod.mk.injEq] at h1
  have s2 := Steps.params hm es mk
  rw [h1.1, h1.2]
  refine (s1.trans s2).cast ?_
  rw [List.map_map]
  rfl

/-- By-value parameters (after the first `k`) of code bound with `<<`. -/
theorem back_params {w : MV D W E S → Nat} {Λ : Lang LB (MV D W E S)} (hm : ∀ x, w (Λ.moved x) = w x) (b : Bound LB) (hd : b.dir = .back) (c : Bool) (cat : Cat)
    (args : List (Expr LB)) (m : LMem D W E S) (hlt : ∀ e ∈ args, e.addr < m.next) (k : Nat) (fe : Expr LB) (ps : List (Expr LB)) (m' m'' : LMem D W E S)
    (h : b.call Λ noIdx (fun callee as m => valueParams Λ (fun ps m => ((.ok (callee, ps, m) : Out E (Expr LB × List (Expr LB) × LMem D W E S)), m)) (as.drop k) m) c cat args m =
      .invoked (.ok (fe, ps, m')) m'') :
    Steps w m m' (w (m'.get fe.addr) + (args.map fun e => w (m.get e.addr)).sum + (ps.map fun p => w (m'.get p.addr)).sum) := by
  have hb := call_body Λ noIdx _ b c cat args m _ _ (fun e _ => by simp [noIdx]) h
  obtain ⟨fe', es, mk, s1, hf, h1⟩ := Steps.back hm _ b hd _ args m hlt _ _ hb
  simp only [valueParams, Out.ok.injEq, Prod.mk.injEq] at h1
  have s2 := Steps.params hm (es.drop k) mk
  obtain ⟨rfl, rfl, rfl⟩ := h1
  rw [s2.same _ hf]
  refine (s1.trans s2).cast ?_
  rw [List.map_map]
  rfl

theorem layout_steps (w : MV D W E S → Nat) (Λ : LLang D W E S) : ∀ (xs : List (MV D W E S)) (m : LMem D W E S), Steps w m (layout Λ xs m).2 0
  | [], m => Steps.refl w m
  | x :: xs, m => by
    rw [layout]
    split
    · exact layout_steps w Λ xs m
    · exact (Steps.alloc w m x).trans (layout_steps w Λ xs _)

theorem placeAll_steps (w : MV D W E S → Nat) : ∀ (xs : List (LB × MV D W E S)) (m : LMem D W E S), Steps w m (placeAll xs m).2 0
  | [], m => Steps.refl w m
  | x :: xs, m => (Steps.alloc w m x.2).trans (placeAll_steps w xs _)

/-- The object is put together again from its members. -/
theorem callBound_steps {R : Type} {w : MV D W E S → Nat} {Λ : LLang D W E S} {b : Bound LB} {code : LCode D W E S R}
    {mk : MV D W E S → List (MV D W E S) → Option (MV D W E S)} {callee : Expr LB} {args : List (Expr LB)} {m0 m mb : LMem D W E S} {o : Out E R} {n : Nat}
    {xs : List (MV D W E S)}
    (hc : b.call Λ.toLang noIdx code callee.c callee.cat args m = .invoked o mb) (hs : Steps w m mb n)
    (h0 : w (m.get callee.addr) = w (m0.get callee.addr)) (hlt : callee.addr < m.next)
    (hels : ∀ el ∈ b.els, (∃ b, el = .empty b) ∨ ∃ b a, el = .stored ⟨b, false, false, .none⟩ a ∧ m0.next ≤ a ∧ a < m.next)
    (hold : HoldAll Λ.toLang m b.els xs) (hsum : (xs.map w).sum = w (m0.get callee.addr))
    (hmk : ∀ s ys y, mk s ys = some y → w y = (ys.map w).sum) :
    Steps w m (callBound Λ b code mk callee args m0 m).2 n ∧ (callBound Λ b code mk callee args m0 m).1 = o := by
  have he : ((b.els.map (elemVal Λ mb)).map w).sum = w (m0.get callee.addr) := by
    rw [← hsum, ← elemVals_eq hold, List.map_map, List.map_map]
    apply congrArg
    apply List.map_congr_left
    intro el hel
    rcases hels el hel with ⟨b, rfl⟩ | ⟨b, a, rfl, -, h2⟩
    · rfl
    · exact hs.same _ h2
  simp only [callBound, hc]
  refine ⟨hs.write _ _ ?_, trivial⟩
  rw [hs.same _ hlt, h0]
  rcases hy : mk (elemVal Λ mb b.f) (b.els.map (elemVal Λ mb)) with _ | y
  · rfl
  · rw [Option.getD_some, hmk _ _ _ hy, he]

variable {cf cv : Nat}

theorem asRegularized_w (s : MV D W E S) (ys : List (MV D W E S)) (y : MV D W E S) (h : asRegularized s ys = some y) :
    y.content cf cv = (ys.map (MV.content cf cv)).sum := by
  unfold asRegularized at h
  split at h
  · cases h; simp [MV.content]
  · simp at h

theorem asWrapDep_w (s : MV D W E S) (ys : List (MV D W E S)) (y : MV D W E S) (h : asWrapDep s ys = some y) :
    y.content cf cv = (ys.map (MV.content cf cv)).sum := by
  unfold asWrapDep at h
  split at h
  · cases h; simp [MV.content]
  · simp at h

theorem asUnregularized_w (s : MV D W E S) (ys : List (MV D W E S)) (y : MV D W E S) (h : asUnregularized s ys = some y) :
    y.content cf cv = (ys.map (MV.content cf cv)).sum := by
  unfold asUnregularized at h
  split at h
  · cases h; simp [MV.content, Obj.content]
  · simp at h

theorem asUnwrapped_w (s : MV D W E S) (ys : List (MV D W E S)) (y : MV D W E S) (h : asUnwrapped s ys = some y) :
    y.content cf cv = (ys.map (MV.content cf cv)).sum := by
  unfold asUnwrapped at h
  split at h
  · cases h; simp [MV.content, Obj.content]
  · simp at h

theorem asLazyValue_w (s : MV D W E S) (ys : List (MV D W E S)) (y : MV D W E S) (h : asLazyValue s ys = some y) :
    y.content cf cv = (ys.map (MV.content cf cv)).sum := by
  unfold asLazyValue at h
  split at h
  · cases h; simp [MV.content, Obj.content]
  · simp at h

theorem asObjs_w : ∀ (ys : List (MV D W E S)) (os : List (Obj D W E S)), asObjs ys = some os → Obj.contents cf cv os = (ys.map (MV.content cf cv)).sum
  | [], os, h => by simp [asObjs] at h; subst h; rfl
  | y :: ys, os, h => by
    unfold asObjs at h
    split at h
    · rename_i heq; simp at heq
    · rename_i heq
      simp only [List.cons.injEq] at heq
      obtain ⟨rfl, rfl⟩ := heq
      simp only [Option.map_eq_some_iff] at h
      obtain ⟨os', h1, rfl⟩ := h
      rw [Obj.contents, asObjs_w _ _ h1, List.map_cons, List.sum_cons]
      rfl
    · simp at h

theorem contents_eq (ds : List (Obj D W E S)) : ((ds.map MV.obj).map (MV.content cf cv)).sum = Obj.contents cf cv ds :=
  (asObjs_w _ _ (asObjs_eq ds)).symm

theorem asCore_w (s : MV D W E S) (ys : List (MV D W E S)) (y : MV D W E S) (h : asCore s ys = some y) :
    y.content cf cv = (ys.map (MV.content cf cv)).sum := by
  unfold asCore at h
  split at h
  · simp only [Option.map_eq_some_iff] at h
    obtain ⟨os, h1, rfl⟩ := h
    rw [List.map_cons, List.sum_cons, ← asObjs_w _ _ h1]
    simp [MV.content, Obj.content]
  · simp at h

/-- What `f` of `detail::lazy` handles when called with `k` arguments. -/
def funCost (cf cv : Nat) (k : Nat) : Fun D W E S → Nat
  | .regularized _ => cf + k * cv
  | .wrapDep _ => cf + 2 * cv

theorem userCode_steps (k : Kind) (callee : Expr LB) (args : List (Expr LB)) (m : LMem D W E S) :
    Steps (MV.content cf cv) m (userCode k callee args m).2 0 := by
  unfold userCode
  split
  · rename_i u vs h1 h2
    have hu : m.get callee.addr = .user u := by
      unfold look at h1
      split at h1
      · exact h1
      · simp at h1
    split
    · exact ((Steps.refl _ m).setWorld _).write _ _ (by simp [hu, MV.content])
    · exact ((Steps.refl _ m).setWorld _).write _ _ (by simp [hu, MV.content])
  · exact Steps.refl _ _

theorem vals_w {es : List (Expr LB)} {m : LMem D W E S} {vs : List (Val D)} (h : (es.map fun e => m.get e.addr) = vs.map .val) :
    (es.map fun e => (m.get e.addr).content cf cv).sum = vs.length * cv := by
  have : (es.map fun e => (m.get e.addr).content cf cv) = (vs.map (MV.val (W := W) (E := E) (S := S))).map (MV.content cf cv) := by
    rw [← h, List.map_map]; rfl
  rw [this]
  clear this h
  induction vs with
  | nil => simp
  | cons v vs ih =>
    simp only [List.map_cons, List.sum_cons, ih, List.length_cons, MV.content, Nat.add_mul]
    omega

theorem rvalues_lv {es : List (Expr LB)} (h : ∀ e ∈ es, e.cat = .lv) : rvalues es = [] := by
  rw [rvalues, List.filter_eq_nil_iff]
  intro e he
  simp [h e he]

theorem funCode_steps (Θ : Empties D W E S) (moved : MV D W E S → MV D W E S) (hm : ∀ x, (moved x).content cf cv = x.content cf cv) (f : Fun D W E S)
    (callee : Expr LB) (args : List (Expr LB))
    (vs : List (Val D)) (m : LMem D W E S) (hf : m.get callee.addr = .func f) (hl : m.alive callee.addr = true) (hlt : callee.addr < m.next)
    (hargs : ∀ e ∈ args, e.cat = .lv ∧ e.addr < m.next) (hvs : (args.map fun e => m.get e.addr) = vs.map .val)
    (hone : ∀ u, f = .wrapDep u → vs.length = 1) :
    Steps (MV.content cf cv) m (funCode (lang Θ moved) (funSh f) callee args m).2 (funCost cf cv vs.length f) := by
  have hlv : ∀ e ∈ args, e.cat = .lv := fun e he => (hargs e he).1
  rcases f with u | u
  · obtain ⟨p, ps, m', ⟨p1, p2, p3, p4, p5, p6, p7⟩, hps, hpv, hw, hk, hold, hcall⟩ := frontOne (E := E) Θ moved .regularize (.user u) callee.c
      callee.cat callee.addr args m (fun e he => (hargs e he).2) (apart_of_lv hlv)
    obtain ⟨lg, lels, lhold⟩ := layout_spec Θ moved [.user u] m
    have ln := lg.next
    have s0 := layout_steps (MV.content cf cv) (lang Θ moved) [.user u] m
    have s1 := front_params (E := E) (w := MV.content cf cv) (Λ := (lang Θ moved).toLang) hm
      ⟨.front, .empty (.lam .regularize), tupleOf (layout (lang Θ moved) [.user u] m).1 callee.addr, (layout (lang Θ moved) [.user u] m).1⟩ rfl callee.c callee.cat args
      (layout (lang Θ moved) [.user u] m).2 (fun e he => by have := (hargs e he).2; omega) (p :: ps) m' _ (hcall _ _)
    have hc := hcall (Val D) (ending fun ps m => match ps with
      | f :: args => userCode .fn f args m
      | [] => (.illFormed, m))
    simp only [ending] at hc
    have s2 := s1.trans (userCode_steps (cf := cf) (cv := cv) .fn p ps m')
    have h := (callBound_steps (w := MV.content cf cv) (mk := asRegularized) (m0 := m) hc ((s2.killRange _ _).killRange _ _) (s0.same _ hlt) (by omega) lels lhold
      (by simp [hf, MV.content]) asRegularized_w).1
    simp only [funSh, funCode, look_eq hl hf]
    refine (s0.trans h).cast ?_
    rw [rvalues_lv hlv, List.map_cons, List.sum_cons, p6, vals_w (hpv.trans hvs)]
    simp [funCost, MV.content]
  · obtain ⟨e, rfl⟩ : ∃ e, args = [e] := by
      have h1 := hone u rfl
      have h2 := congrArg List.length hvs
      simp only [List.length_map, h1] at h2
      exact List.length_eq_one_iff.1 h2
    obtain ⟨lg, lels, lhold⟩ := layout_spec Θ moved [.user u] m
    have ln := lg.next
    have s0 := layout_steps (MV.content cf cv) (lang Θ moved) [.user u] m
    obtain ⟨fe, ps, m', f1, f2, f3, hps, hpw, hpv, hw, hk, hold, hal, hcall⟩ := backCall (E := E) Θ moved (.empty (.lam .poll))
      (tupleOf (layout (lang Θ moved) [.user u] m).1 callee.addr) (layout (lang Θ moved) [.user u] m).1 callee.c callee.cat
      (tupleOf_constOk _ _ _) [e] m (layout (lang Θ moved) [.user u] m).2 lg .unit [.user u] (by
        intro el hel
        rcases List.mem_cons.1 hel with rfl | hel
        · exact .inl ⟨_, rfl⟩
        · exact lels el hel) rfl lhold (fun e he => (hargs e he).2) (apart_of_lv hlv) 0 (by simp)
    have s1 := back_params (E := E) (w := MV.content cf cv) (Λ := (lang Θ moved).toLang) hm
      ⟨.back, .empty (.lam .poll), tupleOf (layout (lang Θ moved) [.user u] m).1 callee.addr, (layout (lang Θ moved) [.user u] m).1⟩ rfl callee.c callee.cat [e]
      (layout (lang Θ moved) [.user u] m).2 (fun e he => by have := (hargs e he).2; omega) 0 fe ps m' _ (hcall _ fun callee ps m => (.ok (callee, ps, m), m))
    simp only [List.drop_zero, List.map_cons, List.map_nil, List.cons_append, List.nil_append] at hpv
    obtain ⟨a, d, rfl⟩ : ∃ a d, ps = [a, d] := by
      exact length_two (by simpa using congrArg List.length hpv)
    simp only [List.map_cons, List.map_nil, List.cons.injEq, and_true] at hpv
    have hc := hcall (Val D) (fun _ => ending fun ps m => match ps with
      | [_, dep] => userCode .dep dep [] m
      | _ => (.illFormed, m))
    simp only [ending] at hc
    have s2 := s1.trans (userCode_steps (cf := cf) (cv := cv) .dep d [] m')
    have h := (callBound_steps (w := MV.content cf cv) (mk := asWrapDep) (m0 := m) hc ((s2.killRange _ _).killRange _ _) (s0.same _ hlt) (by omega) lels lhold
      (by simp [hf, MV.content]) asWrapDep_w).1
    simp only [funSh, funCode, look_eq hl hf]
    refine (s0.trans h).cast ?_
    have he : (m.get e.addr).content cf cv = cv := by
      obtain ⟨v, rfl⟩ := List.length_eq_one_iff.1 (hone u rfl)
      simp only [List.map_cons, List.map_nil, List.cons.injEq, and_true] at hvs
      rw [hvs]; rfl
    have e1 := (s0.same _ (hargs e (by simp)).2).trans he
    have e2 : (m'.get a.addr).content cf cv = cv := by rw [hpv.1, he]
    have e3 : (m'.get d.addr).content cf cv = cf := by rw [hpv.2]; rfl
    have e4 : (m'.get fe.addr).content cf cv = 0 := by rw [f3]; rfl
    simp only [List.map_cons, List.map_nil, List.sum_cons, List.sum_nil, e1, e2, e3, e4, funCost]
    omega

/-! ### Lazy objects -/

mutual
/-- What a call of an object (with `nullptr`) handles, if everything is evaluated. -/
def costN (cf cv : Nat) : Obj D W E S → Nat
  | .lazyValue _ _ => cv
  | .core f _ ds => cf + Obj.contents cf cv ds + costL cf cv ds + funCost cf cv ds.length f
  | .unwrapped inner => 2 * inner.content cf cv + costN cf cv inner
  | .unregularized inner => inner.content cf cv + costN cf cv inner
/-- Of several objects. -/
def costL (cf cv : Nat) : List (Obj D W E S) → Nat
  | [] => 0
  | o :: os => costN cf cv o + costL cf cv os
end

mutual
/-- Values are not counted, or every lazy function has a number of dependencies other than one. -/
def Sized (cv : Nat) : Obj D W E S → Prop
  | .lazyValue _ _ => True
  | .core f _ ds => (cv = 0 ∨ ds.length ≠ 1 ∨ ∃ u, f = .wrapDep u) ∧ SizedL cv ds
  | .unwrapped inner => Sized cv inner
  | .unregularized inner => Sized cv inner
/-- Of several objects. -/
def SizedL (cv : Nat) : List (Obj D W E S) → Prop
  | [] => True
  | o :: os => Sized cv o ∧ SizedL cv os
end

/-- The outcome is a value. -/
def isOk {α : Type} : Out E α → Prop
  | .ok _ => True
  | _ => False

/-- Of a call with one argument. -/
def CostOk [CxxData D] (cf cv : Nat) (Θ : Empties D W E S) (moved : MV D W E S → MV D W E S) (byRef : Bool) (o : Obj D W E S) : Prop :=
  ∀ (m : LMem D W E S) (callee np : Expr LB), callee.cat = .lv → callee.addr < m.next → m.get callee.addr = .obj o →
    m.alive callee.addr = true → np.addr < m.next → np.addr ≠ callee.addr → (m.get np.addr).content cf cv = 0 →
    ∃ n, Steps (MV.content cf cv) m (callN (lang Θ moved) byRef (sh o) callee [np] m).2 n ∧ n ≤ costN cf cv o ∧
      (o.Pristine → isOk (callN (lang Θ moved) byRef (sh o) callee [np] m).1 → n = costN cf cv o)

/-- Of the calls of the dependencies. -/
def CostsOk [CxxData D] (cf cv : Nat) (Θ : Empties D W E S) (moved : MV D W E S → MV D W E S) (byRef : Bool) (ds : List (Obj D W E S)) : Prop :=
  ∀ (m : LMem D W E S) (es : List (Expr LB)), (∀ e ∈ es, e.cat = .lv ∧ e.addr < m.next ∧ m.alive e.addr = true) →
    (es.map fun e => m.get e.addr) = ds.map .obj →
    ∃ n, Steps (MV.content cf cv) m (callDeps (lang Θ moved) byRef (shL ds) es m).2 n ∧ n ≤ costL cf cv ds ∧
      (Obj.PristineL ds → isOk (callDeps (lang Θ moved) byRef (shL ds) es m).1 → n = costL cf cv ds)

theorem cost_value [CxxData D] (Θ : Empties D W E S) (moved : MV D W E S → MV D W E S) (hm : ∀ x, (moved x).content cf cv = x.content cf cv) (byRef : Bool) (v : Val D) (c : Bool) :
    CostOk cf cv Θ moved byRef (.lazyValue v c) := by
  intro m callee np hcat hlt hget hlive hnp hne hz
  obtain ⟨lg, lels, lhold⟩ := layout_spec Θ moved [.val v, .flag c] m
  have ln := lg.next
  have s0 := layout_steps (MV.content cf cv) (lang Θ moved) [.val v, .flag c] m
  obtain ⟨fe, ps, m', f1, f2, f3, hps, hpw, hpv, hw, hk, hold, hal, hcall⟩ := backCall (E := E) Θ moved (.empty (.lam .value))
    (tupleOf (layout (lang Θ moved) [.val v, .flag c] m).1 callee.addr) (layout (lang Θ moved) [.val v, .flag c] m).1 callee.c callee.cat
    (tupleOf_constOk _ _ _) [np] m (layout (lang Θ moved) [.val v, .flag c] m).2 lg .unit [.val v, .flag c] (by
      intro el hel
      rcases List.mem_cons.1 hel with rfl | hel
      · exact .inl ⟨_, rfl⟩
      · exact lels el hel) rfl lhold
    (fun e he => by rw [List.mem_singleton] at he; rw [he]; exact hnp) (by simp [Apart]) 0 (by simp)
  have s1 := back_params (E := E) (w := MV.content cf cv) (Λ := (lang Θ moved).toLang) hm
    ⟨.back, .empty (.lam .value), tupleOf (layout (lang Θ moved) [.val v, .flag c] m).1 callee.addr, (layout (lang Θ moved) [.val v, .flag c] m).1⟩ rfl callee.c callee.cat [np]
    (layout (lang Θ moved) [.val v, .flag c] m).2 (fun e he => by rw [List.mem_singleton] at he; rw [he]; omega) 0 fe ps m' _ (hcall _ fun callee ps m => (.ok (callee, ps, m), m))
  simp only [List.drop_zero, List.map_cons, List.map_nil, List.cons_append, List.nil_append] at hpv
  obtain ⟨n', x, y, rfl⟩ : ∃ a b c, ps = [a, b, c] := by
    have := congrArg List.length hpv
    rcases ps with _ | ⟨a, _ | ⟨b, _ | ⟨c, _ | ⟨d, l⟩⟩⟩⟩ <;> simp at this
    exact ⟨a, b, c, rfl⟩
  simp only [List.map_cons, List.map_nil, List.cons.injEq, and_true] at hpv
  obtain ⟨x1, x2, x3, x4, x5, x6⟩ := hps x (by simp)
  have hc := hcall (LRes D) (fun _ => ending fun ps m => match ps with
    | [_, value, changed] =>
      match look m value.addr, look m changed.addr with
      | .val v, .flag b => (.ok (mkResult byRef value.addr v b), m)
      | _, _ => (.ub, m)
    | _ => (.illFormed, m))
  obtain ⟨y1, y2, y3, y4, y5, y6⟩ := hps y (by simp)
  simp only [ending, look_eq (hal _ (by omega) x5) hpv.2.1, look_eq (hal _ (by omega) y5) hpv.2.2] at hc
  have h := (callBound_steps (w := MV.content cf cv) (mk := asLazyValue) (m0 := m) hc ((s1.killRange _ _).killRange _ _) (s0.same _ hlt) (by omega) lels lhold
    (by simp [hget, MV.content, Obj.content]) asLazyValue_w).1
  refine ⟨cv, ?_, by rw [costN]; exact Nat.le_refl _, fun _ _ => by rw [costN]⟩
  have he : callN (lang Θ moved) byRef (sh (.lazyValue v c : Obj D W E S)) callee [np] m = callBound (lang Θ moved)
      ⟨.back, .empty (.lam .value), tupleOf (layout (lang Θ moved) [.val v, .flag c] m).1 callee.addr, (layout (lang Θ moved) [.val v, .flag c] m).1⟩
      (valueLam (lang Θ moved) byRef) asLazyValue callee [np] m (layout (lang Θ moved) [.val v, .flag c] m).2 := by
    simp only [sh, callN, look_eq hlive hget]
  rw [he]
  refine (s0.trans h).cast ?_
  have e1 := (s0.same _ hnp).trans hz
  have e2 : (m'.get n'.addr).content cf cv = 0 := by rw [hpv.1, hz]
  have e3 : (m'.get x.addr).content cf cv = cv := by rw [hpv.2.1]; rfl
  have e4 : (m'.get y.addr).content cf cv = 0 := by rw [hpv.2.2]; rfl
  have e5 : (m'.get fe.addr).content cf cv = 0 := by rw [f3]; rfl
  simp only [List.map_cons, List.map_nil, List.sum_cons, List.sum_nil, e1, e2, e3, e4, e5]
  omega

theorem cost_unwrapped [CxxData D] (Θ : Empties D W E S) (moved : MV D W E S → MV D W E S) (hm : ∀ x, (moved x).content cf cv = x.content cf cv) (byRef : Bool)
    (inner : Obj D W E S) (ih : CostOk cf cv Θ moved byRef inner) : CostOk cf cv Θ moved byRef (.unwrapped inner) := by
  intro m callee np hcat hlt hget hlive hnp hne hz
  obtain ⟨lg, lels, lhold⟩ := layout_spec Θ moved [.obj inner] m
  have ln := lg.next
  have s0 := layout_steps (MV.content cf cv) (lang Θ moved) [.obj inner] m
  have hargs : ∀ e ∈ [callee, np], e.addr < m.next := by
    intro e he
    simp only [List.mem_cons, List.not_mem_nil, or_false] at he
    rcases he with rfl | rfl
    · exact hlt
    · exact hnp
  obtain ⟨fe, ps, m', f1, f2, f3, hps, hpw, hpv, hw, hk, hold, hal, hcall⟩ := backCall (E := E) Θ moved (.empty (.lam .unwrap))
    (tupleOf (layout (lang Θ moved) [.obj inner] m).1 callee.addr) (layout (lang Θ moved) [.obj inner] m).1 callee.c callee.cat
    (tupleOf_constOk _ _ _) [callee, np] m (layout (lang Θ moved) [.obj inner] m).2 lg .unit [.obj inner] (by
      intro el hel
      rcases List.mem_cons.1 hel with rfl | hel
      · exact .inl ⟨_, rfl⟩
      · exact lels el hel) rfl lhold hargs (by
        simp only [Apart, List.pairwise_cons, List.mem_singleton, forall_eq, List.not_mem_nil, false_imp_iff, implies_true, List.Pairwise.nil, and_true]
        exact fun _ h => hne h.symm) 1 (by simp)
  have s1 := back_params (E := E) (w := MV.content cf cv) (Λ := (lang Θ moved).toLang) hm
    ⟨.back, .empty (.lam .unwrap), tupleOf (layout (lang Θ moved) [.obj inner] m).1 callee.addr, (layout (lang Θ moved) [.obj inner] m).1⟩ rfl callee.c callee.cat [callee, np]
    (layout (lang Θ moved) [.obj inner] m).2 (fun e he => by have := hargs e he; omega) 1 fe ps m' _ (hcall _ fun callee ps m => (.ok (callee, ps, m), m))
  simp only [List.drop_succ_cons, List.drop_zero, List.map_cons, List.map_nil, List.cons_append, List.nil_append] at hpv
  obtain ⟨a, d, rfl⟩ : ∃ a d, ps = [a, d] := by
    exact length_two (by simpa using congrArg List.length hpv)
  simp only [List.map_cons, List.map_nil, List.cons.injEq, and_true] at hpv
  obtain ⟨d1, d2, d3, d4, d5, d6⟩ := hps d (by simp)
  obtain ⟨n, h1, h2, h3⟩ := ih (m'.alloc .unit) d ⟨.nullptr, false, false, .xv, m'.next⟩ d3 (by rw [alloc_next]; omega)
    (by simp only [Mem.alloc]; rw [if_neg (by omega)]; exact hpv.2)
    (by simp [Mem.alloc, hal _ (by omega : m.next ≤ d.addr) d5]) (by simp only; rw [alloc_next]; omega) (by simp only; omega)
    (by simp only [alloc_get]; rfl)
  have hc := hcall (LRes D) (fun _ => ending fun ps m => match ps with
    | [_, f] => withNullptr (callN (lang Θ moved) byRef (sh inner)) f m
    | _ => (.illFormed, m))
  simp only [ending, withNullptr] at hc
  have s2 := (s1.trans ((Steps.alloc _ m' .unit).trans h1)).kill m'.next
  obtain ⟨g1, g2⟩ := callBound_steps (w := MV.content cf cv) (mk := asUnwrapped) (m0 := m) hc ((s2.killRange _ _).killRange _ _) (s0.same _ hlt) (by omega) lels lhold
    (by simp [hget, MV.content, Obj.content]) asUnwrapped_w
  have he : callN (lang Θ moved) byRef (sh (.unwrapped inner : Obj D W E S)) callee [np] m = callBound (lang Θ moved)
      ⟨.back, .empty (.lam .unwrap), tupleOf (layout (lang Θ moved) [.obj inner] m).1 callee.addr, (layout (lang Θ moved) [.obj inner] m).1⟩
      (unwrapLam (lang Θ moved) (callN (lang Θ moved) byRef (sh inner))) asUnwrapped callee [callee, np] m (layout (lang Θ moved) [.obj inner] m).2 := by
    simp only [sh, callN, look_eq hlive hget]
  rw [he]
  refine ⟨2 * inner.content cf cv + n, (s0.trans g1).cast ?_, by rw [costN]; omega, ?_⟩
  · have e1 := (s0.same _ hnp).trans hz
    have e2 : (m'.get a.addr).content cf cv = 0 := by rw [hpv.1, hz]
    have e3 : (m'.get d.addr).content cf cv = inner.content cf cv := by rw [hpv.2]; rfl
    have e4 : (m'.get fe.addr).content cf cv = 0 := by rw [f3]; rfl
    have e5 : ((layout (lang Θ moved) [.obj inner] m).2.get callee.addr).content cf cv = inner.content cf cv := by
      rw [s0.same _ hlt, hget]; simp [MV.content, Obj.content]
    simp only [List.map_cons, List.map_nil, List.sum_cons, List.sum_nil, e1, e2, e3, e4, e5]
    omega
  · intro hp ho
    rw [costN, h3 (by simpa [Obj.Pristine] using hp) (by rw [← g2]; exact ho)]

/-- The facade around an object, given what the call inside handles. -/
theorem cost_facade {R : Type} (Θ : Empties D W E S) (moved : MV D W E S → MV D W E S) (hm : ∀ x, (moved x).content cf cv = x.content cf cv) (inner : Obj D W E S) (code : LCode D W E S R)
    (callee : Expr LB) (args : List (Expr LB)) (m : LMem D W E S) (hget : m.get callee.addr = .obj (.unregularized inner)) (hlt : callee.addr < m.next)
    (hlive : m.alive callee.addr = true)
    (hargs : ∀ e ∈ args, e.addr < m.next ∧ e.addr ≠ callee.addr ∧ (m.get e.addr).content cf cv = 0) (hx : Apart args) (Q : Out E R → Nat → Prop)
    (ih : ∀ (m' : LMem D W E S) (p : Expr LB) (ps : List (Expr LB)), p.cat = .lv → p.addr < m'.next → m'.get p.addr = .obj inner →
      m'.alive p.addr = true → ps.length = args.length → (∀ q ∈ ps, q.cat = .lv ∧ q.addr < m'.next ∧ q.addr ≠ p.addr ∧ (m'.get q.addr).content cf cv = 0) →
      ∃ n, Steps (MV.content cf cv) m' (code p ps m').2 n ∧ Q (code p ps m').1 n) :
    ∃ n, Steps (MV.content cf cv) m (unregularizedCode (lang Θ moved) code callee args m).2 (inner.content cf cv + n) ∧
      Q (unregularizedCode (lang Θ moved) code callee args m).1 n := by
  obtain ⟨p, ps, m', ⟨p1, p2, p3, p4, p5, p6, p7⟩, hps, hpv, hw, hk, hold, hcall⟩ := frontOne (E := E) Θ moved .unregularize (.obj inner) callee.c
    callee.cat callee.addr args m (fun e he => (hargs e he).1) hx
  obtain ⟨lg, lels, lhold⟩ := layout_spec Θ moved [.obj inner] m
  have ln := lg.next
  have s0 := layout_steps (MV.content cf cv) (lang Θ moved) [.obj inner] m
  have s1 := front_params (E := E) (w := MV.content cf cv) (Λ := (lang Θ moved).toLang) hm
    ⟨.front, .empty (.lam .unregularize), tupleOf (layout (lang Θ moved) [.obj inner] m).1 callee.addr, (layout (lang Θ moved) [.obj inner] m).1⟩ rfl callee.c callee.cat args
    (layout (lang Θ moved) [.obj inner] m).2 (fun e he => by have := (hargs e he).1; omega) (p :: ps) m' _ (hcall _ _)
  have hz : ∀ q ∈ ps, (m'.get q.addr).content cf cv = 0 := by
    intro q hq
    have : m'.get q.addr ∈ ps.map fun q => m'.get q.addr := List.mem_map.2 ⟨q, hq, rfl⟩
    rw [hpv] at this
    obtain ⟨e, he, h⟩ := List.mem_map.1 this
    rw [← h]
    exact (hargs e he).2.2
  have sum0 : ∀ {α : Type} (l : List α) (g : α → Nat), (∀ x ∈ l, g x = 0) → (l.map g).sum = 0 := by
    intro α l g h
    induction l with
    | nil => rfl
    | cons x l ih => rw [List.map_cons, List.sum_cons, h x (by simp), ih fun y hy => h y (by simp [hy])]
  obtain ⟨n, h1, h2⟩ := ih m' p ps p3 p5 p6 p7 (by simpa using congrArg List.length hpv)
    (fun q hq => ⟨(hps q hq).2.2.1, (hps q hq).2.2.2.2.1, (hps q hq).2.2.2.2.2.1, hz q hq⟩)
  have hc := hcall R (ending fun ps m => match ps with
    | f :: args => code f args m
    | [] => (.illFormed, m))
  simp only [ending] at hc
  obtain ⟨g1, g2⟩ := callBound_steps (w := MV.content cf cv) (mk := asUnregularized) (m0 := m) hc (((s1.trans h1).killRange _ _).killRange _ _) (s0.same _ hlt) (by omega) lels lhold
    (by simp [hget, MV.content, Obj.content]) asUnregularized_w
  have he : unregularizedCode (lang Θ moved) code callee args m = callBound (lang Θ moved)
      ⟨.front, .empty (.lam .unregularize), tupleOf (layout (lang Θ moved) [.obj inner] m).1 callee.addr, (layout (lang Θ moved) [.obj inner] m).1⟩
      (unregularizeLam (lang Θ moved) code) asUnregularized callee args m (layout (lang Θ moved) [.obj inner] m).2 := by
    simp only [unregularizedCode, look_eq hlive hget]
  rw [he]
  refine ⟨n, (s0.trans g1).cast ?_, ?_⟩
  · have e3 : (m'.get p.addr).content cf cv = inner.content cf cv := by rw [p6]; rfl
    rw [sum0 _ _ (fun e he => by
      have he := (List.mem_filter.1 he).1
      rw [s0.same _ (hargs e he).1]
      exact (hargs e he).2.2), List.map_cons, List.sum_cons, e3, sum0 _ _ hz]
    omega
  · have g3 : (callBound (lang Θ moved)
      ⟨.front, .empty (.lam .unregularize), tupleOf (layout (lang Θ moved) [.obj inner] m).1 callee.addr, (layout (lang Θ moved) [.obj inner] m).1⟩
      (unregularizeLam (lang Θ moved) code) asUnregularized callee args m (layout (lang Θ moved) [.obj inner] m).2).1 = (code p ps m').1 := g2
    rw [g3]
    exact h2

theorem cost_unregularized [CxxData D] (Θ : Empties D W E S) (moved : MV D W E S → MV D W E S) (hm : ∀ x, (moved x).content cf cv = x.content cf cv) (byRef : Bool)
    (inner : Obj D W E S) (ih : CostOk cf cv Θ moved byRef inner) : CostOk cf cv Θ moved byRef (.unregularized inner) := by
  intro m callee np hcat hlt hget hlive hnp hne hz
  obtain ⟨n, h1, h2⟩ := cost_facade Θ moved hm inner (callN (lang Θ moved) byRef (sh inner)) callee [np] m hget hlt hlive
    (by simpa using ⟨hnp, hne, hz⟩) (by simp [Apart]) (fun o n => n ≤ costN cf cv inner ∧ (inner.Pristine → isOk o → n = costN cf cv inner)) (by
      intro m' p ps hp hpl hpg hpa hlen hps
      obtain ⟨np', rfl⟩ := List.length_eq_one_iff.1 hlen
      obtain ⟨n1, n2, n3, n4⟩ := hps np' (by simp)
      exact ih m' p np' hp hpl hpg hpa n2 n3 n4)
  simp only [sh, callN, costN]
  exact ⟨_, h1, by omega, fun hp ho => by rw [h2.2 (by simpa [Obj.Pristine] using hp) ho]⟩

theorem coreResult_steps (w : MV D W E S → Nat) (byRef : Bool) (a : Nat) (changed : Bool) (m : LMem D W E S) :
    Steps w m (coreResult (E := E) byRef a changed m).2 0 := by
  unfold coreResult
  split
  · exact Steps.refl _ _
  · exact (Steps.alloc _ _ _).kill _
  · exact Steps.refl _ _

/-- The body of the closure of `detail::lazy`. -/
theorem coreBody_steps [CxxData D] (Θ : Empties D W E S) (moved : MV D W E S → MV D W E S) (hm : ∀ x, (moved x).content cf cv = x.content cf cv) (byRef : Bool) (f : Fun D W E S)
    (cache : Cache D) (evalD : List (Expr LB) → LMem D W E S → Out E (List (LRes D)) × LMem D W E S) (callee np fp : Expr LB) (es : List (Expr LB))
    (m : LMem D W E S) (hclt : callee.addr < m.next) (hc : m.get callee.addr = .cache cache) (hf : m.get fp.addr = .func f) (hflt : fp.addr < m.next)
    (hcla : m.alive callee.addr = true) (hfla : m.alive fp.addr = true) (k n1 : Nat) (hD : Steps (MV.content cf cv) m (evalD es m).2 n1)
    (hD4 : Keeps (fun _ => False) m (evalD es m).2)
    (hlen : ∀ rs, (evalD es m).1 = .ok rs → ∀ vs, readResults (evalD es m).2 rs = some vs →
      funCost cf cv (tupleCTAD Val.asTuple vs).length f = funCost cf cv k f ∧ ∀ u, f = .wrapDep u → (tupleCTAD Val.asTuple vs).length = 1) :
    ∃ n2, Steps (MV.content cf cv) m (coreBody (lang Θ moved) byRef (funSh f) evalD callee (np :: fp :: es) m).2 (n1 + n2) ∧ n2 ≤ funCost cf cv k f ∧
      (isOk (coreBody (lang Θ moved) byRef (funSh f) evalD callee (np :: fp :: es) m).1 → isOk (evalD es m).1 ∧ (cache.engaged = false → n2 = funCost cf cv k f)) := by
  rcases hr : evalD es m with ⟨or, m1⟩
  rw [hr] at hD hD4 hlen
  simp only at hD hD4 hlen
  rcases or with rs | e | _ | _
  · have hn1 := hD4.next
    have hcl : m1.get callee.addr = .cache cache := by rw [hD4.frame _ hclt (by simp), hc]
    have hfl : m1.get fp.addr = .func f := by rw [hD4.frame _ hflt (by simp), hf]
    have hcl2 : m1.alive callee.addr = true := by rw [hD4.alive _ hclt, hcla]
    have hfl2 : m1.alive fp.addr = true := by rw [hD4.alive _ hflt, hfla]
    simp only [coreBody, hr, look_eq hcl2 hcl]
    by_cases hch : (!cache.engaged || any LRes.isChanged rs) = true
    · rw [if_pos hch]
      rcases hrr : readResults m1 rs with _ | vs
      · exact ⟨0, hD, Nat.zero_le _, fun h => h.elim⟩
      · obtain ⟨h1, h2⟩ := hlen rs rfl vs hrr
        simp only
        have hvs := placed_refs (D := D) (W := W) (E := E) (S := S) (lang Θ moved).base (tupleCTAD Val.asTuple vs) m1
        have hpl := placeAll_spec (((tupleCTAD Val.asTuple vs).map fun v => ((lang Θ moved).base (.val v), (.val v : MV D W E S)))) m1
        have sp := placeAll_steps (MV.content cf cv) (((tupleCTAD Val.asTuple vs).map fun v => ((lang Θ moved).base (.val v), (.val v : MV D W E S)))) m1
        generalize hp : placeAll (((tupleCTAD Val.asTuple vs).map fun v => ((lang Θ moved).base (.val v), (.val v : MV D W E S)))) m1 = p at hvs hpl sp ⊢
        simp only at hvs
        have hpn := hpl.1.next
        have sf := funCode_steps (cf := cf) (cv := cv) Θ moved hm f fp (constRefs p.1) (tupleCTAD Val.asTuple vs) p.2
          (by rw [hpl.1.frame _ (by omega) (by simp), hfl]) (by rw [hpl.1.aliveOld _ (by omega), hfl2]) (by omega) hvs.1 hvs.2 h2
        rw [h1] at sf
        have s2 := hD.trans (sp.trans sf)
        rw [Nat.zero_add] at s2
        rcases hfc : funCode (lang Θ moved) (funSh f) fp (constRefs p.1) p.2 with ⟨o', m2⟩
        rw [hfc] at s2
        simp only at s2
        refine ⟨funCost cf cv k f, ?_, Nat.le_refl _, fun _ => ⟨trivial, fun _ => rfl⟩⟩
        rcases o' with result | e | _ | _ <;> simp only
        · exact (((s2.setWorld _).write callee.addr (.cache (cache.assign result)) (by
            show _ = MV.content cf cv (m2.get callee.addr)
            rw [s2.same _ hclt, hc]; rfl)).trans (coreResult_steps _ _ _ _ _)).killRange _ _
        · exact s2.killRange _ _
        · exact s2.killRange _ _
        · exact s2.killRange _ _
    · rw [if_neg hch]
      refine ⟨0, (hD.trans (coreResult_steps _ _ _ _ _)), Nat.zero_le _, fun _ => ⟨trivial, fun h => ?_⟩⟩
      rw [h] at hch
      simp at hch
  · simp only [coreBody, hr]
    exact ⟨0, hD, Nat.zero_le _, fun h => h.elim⟩
  · simp only [coreBody, hr]
    exact ⟨0, hD, Nat.zero_le _, fun h => h.elim⟩
  · simp only [coreBody, hr]
    exact ⟨0, hD, Nat.zero_le _, fun h => h.elim⟩

theorem tupleCTAD_length (vs : List (Val D)) (h : vs.length ≠ 1) : (tupleCTAD Val.asTuple vs).length = vs.length := by
  rcases vs with _ | ⟨v, _ | ⟨w, vs⟩⟩
  · rfl
  · simp at h
  · rfl

theorem cost_core [CxxData D] (Θ : Empties D W E S) (moved : MV D W E S → MV D W E S) (hm : ∀ x, (moved x).content cf cv = x.content cf cv) (byRef : Bool)
    (f : Fun D W E S) (cache : Cache D) (ds : List (Obj D W E S)) (hone : ∀ u, f = .wrapDep u → ∃ d, ds = [.lazyValue (.data d) true])
    (hs : cv = 0 ∨ ds.length ≠ 1 ∨ ∃ u, f = .wrapDep u) (ih0 : DepsOk Θ moved byRef ds) (ih : CostsOk cf cv Θ moved byRef ds) :
    CostOk cf cv Θ moved byRef (.core f cache ds) := by
  intro m callee np hcat hlt hget hlive hnp hne hz
  obtain ⟨pg, pe, pv⟩ := layout_spec Θ moved (.func f :: ds.map .obj) (m.alloc (.cache cache))
  have s0 := (Steps.alloc (MV.content cf cv) m (.cache cache)).trans (layout_steps (MV.content cf cv) (lang Θ moved) (.func f :: ds.map .obj) (m.alloc (.cache cache)))
  have pn := pg.next
  rw [alloc_next] at pn pe
  have ga : Grows (fun _ => False) m (m.alloc (.cache cache)) := Grows.alloc _ _ _
  have hclo : (layout (lang Θ moved) (.func f :: ds.map .obj) (m.alloc (.cache cache))).2.get m.next = .cache cache := by
    rw [pg.frame _ (by rw [alloc_next]; omega) (by simp), alloc_get]
  generalize hpl : layout (lang Θ moved) (.func f :: ds.map .obj) (m.alloc (.cache cache)) = p at *
  have pels : ∀ el ∈ p.1, (∃ b, el = .empty b) ∨ ∃ b a, el = .stored ⟨b, false, false, .none⟩ a ∧ m.next ≤ a ∧ a < p.2.next := by
    intro el hel
    rcases pe el hel with h | ⟨b, a, h1, h2, h3⟩
    · exact .inl h
    · exact .inr ⟨b, a, h1, by omega, h3⟩
  obtain ⟨fe, ps, m', f1, f2, f3, hps, hpw, hpv, hw, hk, hold, hal, hcall⟩ := backCall (E := E) Θ moved
    (.stored ⟨.closure, false, false, .none⟩ m.next) (tupleOf p.1 callee.addr) p.1 callee.c callee.cat (tupleOf_constOk _ _ _) [np] m p.2
    (ga.trans pg) (.cache cache) (.func f :: ds.map .obj) (by
      intro el hel
      rcases List.mem_cons.1 hel with rfl | hel
      · exact .inr ⟨_, _, rfl, Nat.le_refl _, by omega⟩
      · exact pels el hel) hclo pv
    (fun e he => by rw [List.mem_singleton] at he; rw [he]; exact hnp) (by simp [Apart]) 0 (by simp)
  have s1 := back_params (E := E) (w := MV.content cf cv) (Λ := (lang Θ moved).toLang) hm
    ⟨.back, .stored ⟨.closure, false, false, .none⟩ m.next, tupleOf p.1 callee.addr, p.1⟩ rfl callee.c callee.cat [np]
    p.2 (fun e he => by rw [List.mem_singleton] at he; rw [he]; omega) 0 fe ps m' _ (hcall _ fun callee ps m => (.ok (callee, ps, m), m))
  simp only [List.drop_zero, List.map_cons, List.map_nil, List.cons_append, List.nil_append] at hpv
  obtain ⟨n', fp, es, rfl⟩ : ∃ a b es, ps = a :: b :: es := by
    have := congrArg List.length hpv
    rcases ps with _ | ⟨a, _ | ⟨b, l⟩⟩ <;> simp at this
    exact ⟨a, b, l, rfl⟩
  simp only [List.map_cons, List.cons.injEq] at hpv
  obtain ⟨x1, x2, x3, x4, x5, x6⟩ := hps fp (by simp)
  have hes : ∀ e ∈ es, e.cat = .lv ∧ e.addr < m'.next ∧ m'.alive e.addr = true := fun e he => by
    have := hps e (by simp [he])
    exact ⟨this.2.2.1, this.2.2.2.2.1, hal _ (by omega) this.2.2.2.2.1⟩
  obtain ⟨i1, i2, i3, i4⟩ := ih0 m' es hes hpv.2.2
  obtain ⟨n1, j1, j2, j3⟩ := ih m' es hes hpv.2.2
  obtain ⟨n2, b1, b2, b3⟩ := coreBody_steps Θ moved hm byRef f cache (callDeps (lang Θ moved) byRef (shL ds)) fe n' fp es m' f2 f3
    hpv.2.1 x5 (hal _ (by omega) f2) (hal _ (by omega) x5) ds.length n1 j1 i4 (by
      intro rs hrs vs hvs
      rw [hrs] at i1
      rcases hq : (evalDeps (written byRef) ds m'.world).1 with qs | _ | _ | _ <;> rw [hq] at i1 <;> simp only [OutRel] at i1
      rw [readResults_eq i1] at hvs
      by_cases hl : (qs.all fun x => x.live) = true
      · rw [if_pos hl] at hvs
        cases hvs
        rcases f with u | u
        · refine ⟨?_, fun _ h => by simp at h⟩
          rcases hs with hs | hs | ⟨u, hu⟩
          · simp [funCost, hs]
          · have hql := evalDeps_length (written byRef) ds m'.world qs hq
            rw [tupleCTAD_length _ (by rw [List.length_map, hql]; exact hs), List.length_map, hql]
          · simp at hu
        · obtain ⟨d, rfl⟩ := hone u rfl
          refine ⟨rfl, fun _ _ => ?_⟩
          simp only [evalDeps, evalN, Out.map, Out.ok.injEq] at hq
          subst hq
          rfl
      · rw [if_neg hl] at hvs; simp at hvs)
  have hc := hcall (LRes D) (fun callee => ending (coreBody (lang Θ moved) byRef (funSh f) (callDeps (lang Θ moved) byRef (shL ds)) callee))
  simp only [ending] at hc
  obtain ⟨g1, g2⟩ := callBound_steps (w := MV.content cf cv) (mk := asCore) (m0 := m) hc (((s1.trans b1).killRange _ _).killRange _ _) (s0.same _ hlt) (by omega) pels pv
    (by
      rw [hget, List.map_cons, List.sum_cons, contents_eq]
      simp [MV.content, Obj.content]) asCore_w
  have he : callN (lang Θ moved) byRef (sh (.core f cache ds)) callee [np] m = callBound (lang Θ moved)
      ⟨.back, .stored ⟨.closure, false, false, .none⟩ m.next, tupleOf p.1 callee.addr, p.1⟩
      (coreLam (lang Θ moved) byRef (funSh f) (callDeps (lang Θ moved) byRef (shL ds))) asCore callee [np] m p.2 := by
    simp only [sh, callN, look_eq hlive hget, hpl]
  rw [he]
  refine ⟨cf + Obj.contents cf cv ds + n1 + n2, (s0.trans g1).cast ?_, by rw [costN]; omega, ?_⟩
  · have e1 := (s0.same _ hnp).trans hz
    have e2 : (m'.get n'.addr).content cf cv = 0 := by rw [hpv.1, hz]
    have e3 : (m'.get fp.addr).content cf cv = cf := by rw [hpv.2.1]; rfl
    have e4 : (es.map fun q => (m'.get q.addr).content cf cv).sum = Obj.contents cf cv ds := by
      rw [← contents_eq, ← hpv.2.2]
      simp [Function.comp_def]
    have e5 : (m'.get fe.addr).content cf cv = 0 := by rw [f3]; rfl
    simp only [List.map_cons, List.map_nil, List.sum_cons, List.sum_nil, e1, e2, e3, e4, e5]
    omega
  · intro hp ho
    rw [Obj.Pristine] at hp
    have ho := ho
    rw [show (callBound (lang Θ moved)
      ⟨.back, .stored ⟨.closure, false, false, .none⟩ m.next, tupleOf p.1 callee.addr, p.1⟩
      (coreLam (lang Θ moved) byRef (funSh f) (callDeps (lang Θ moved) byRef (shL ds))) asCore callee [np] m p.2).1 = _ from g2] at ho
    obtain ⟨o1, o2⟩ := b3 ho
    rw [costN, j3 hp.2 o1, o2 (by rcases cache with (_ | v) | (_ | v) <;> simp_all [Cache.val?, Cache.engaged])]

mutual
/-- Every object. -/
theorem costN_spec [CxxData D] (Θ : Empties D W E S) (moved : MV D W E S → MV D W E S) (hm : ∀ x, (moved x).content cf cv = x.content cf cv) (byRef : Bool) :
    ∀ (o : Obj D W E S), Typed o → Sized cv o → CostOk cf cv Θ moved byRef o
  | .lazyValue v c, _, _ => cost_value Θ moved hm byRef v c
  | .core f cache ds, h, hs => by
    rw [Typed] at h
    rw [Sized] at hs
    exact cost_core Θ moved hm byRef f cache ds h.2 hs.1 (callDeps_spec Θ moved byRef ds h.1) (costL_spec Θ moved hm byRef ds h.1 hs.2)
  | .unwrapped inner, h, hs => by
    rw [Typed] at h
    rw [Sized] at hs
    exact cost_unwrapped Θ moved hm byRef inner (costN_spec Θ moved hm byRef inner h hs)
  | .unregularized inner, h, hs => by
    rw [Typed] at h
    rw [Sized] at hs
    exact cost_unregularized Θ moved hm byRef inner (costN_spec Θ moved hm byRef inner h hs)
/-- All dependencies. -/
theorem costL_spec [CxxData D] (Θ : Empties D W E S) (moved : MV D W E S → MV D W E S) (hm : ∀ x, (moved x).content cf cv = x.content cf cv) (byRef : Bool) :
    ∀ (ds : List (Obj D W E S)), TypedL ds → SizedL cv ds → CostsOk cf cv Θ moved byRef ds
  | [], _, _ => by
    intro m es _ _
    simp only [shL, callDeps, costL]
    exact ⟨0, Steps.refl _ _, Nat.le_refl _, fun _ _ => rfl⟩
  | d :: ds, h, hs => by
    rw [TypedL] at h
    rw [SizedL] at hs
    have ih0 := callN_spec Θ moved byRef d h.1
    have ih1 := costN_spec Θ moved hm byRef d h.1 hs.1
    have ih2 := costL_spec Θ moved hm byRef ds h.2 hs.2
    intro m es hes hval
    obtain ⟨e, es, rfl⟩ : ∃ e es', es = e :: es' := by
      rcases es with _ | ⟨e, es⟩
      · simp at hval
      · exact ⟨e, es, rfl⟩
    simp only [List.map_cons, List.cons.injEq] at hval
    obtain ⟨e1, e2, e3⟩ := hes e (by simp)
    have p1 : e.addr < (m.alloc (MV.unit : MV D W E S)).next := by rw [alloc_next]; omega
    have p2 : (m.alloc (MV.unit : MV D W E S)).get e.addr = .obj d := by simp only [Mem.alloc]; rw [if_neg (by omega)]; exact hval.1
    have p3 : (m.alloc (MV.unit : MV D W E S)).alive e.addr = true := by simp [Mem.alloc, e3]
    have p4 : (⟨.nullptr, false, false, .xv, m.next⟩ : Expr LB).addr < (m.alloc (MV.unit : MV D W E S)).next := by simp only; rw [alloc_next]; omega
    have p5 : (⟨.nullptr, false, false, .xv, m.next⟩ : Expr LB).addr ≠ e.addr := by simp only; omega
    obtain ⟨-, -, -, h4⟩ := ih0 (m.alloc .unit) e ⟨.nullptr, false, false, .xv, m.next⟩ e1 p1 p2 p3 p4 p5
    obtain ⟨n, g1, g2, g3⟩ := ih1 (m.alloc .unit) e ⟨.nullptr, false, false, .xv, m.next⟩ e1 p1 p2 p3 p4 p5 (by simp only [alloc_get]; rfl)
    simp only [shL, callDeps, costL, Obj.PristineL]
    rcases hr : callN (lang Θ moved) byRef (sh d) e [⟨.nullptr, false, false, .xv, m.next⟩] (m.alloc .unit) with ⟨or, m1⟩
    rw [hr] at h4 g1 g3
    simp only at h4 g1 g3
    have hk1 : Keeps (fun _ => False) m m1 := ((Keeps.refl _ m).alloc _).trans h4 fun a ha h => by omega
    have s1 := (Steps.alloc (MV.content cf cv) m .unit).trans g1
    rcases or with r | x' | _ | _
    · have hn := hk1.next
      obtain ⟨n2, k1, k2, k3⟩ := ih2 m1 es (fun e' he' => by
        have := hes e' (by simp [he'])
        exact ⟨this.1, by omega, by rw [hk1.alive _ this.2.1]; exact this.2.2⟩) (by
        rw [← hval.2]
        apply List.map_congr_left
        intro e' he'
        exact hk1.frame _ (hes e' (by simp [he'])).2.1 (by simp))
      refine ⟨n + n2, ((s1.trans k1).kill _).cast (by omega), by omega, fun hp ho => ?_⟩
      rw [g3 hp.1 trivial, k3 hp.2 (by
        simp only at ho
        revert ho
        cases (callDeps (lang Θ moved) byRef (shL ds) es m1).1 <;> exact fun h => h)]
    · exact ⟨n, (s1.kill _).cast (by omega), by omega, fun _ h => h.elim⟩
    · exact ⟨n, (s1.kill _).cast (by omega), by omega, fun _ h => h.elim⟩
    · exact ⟨n, (s1.kill _).cast (by omega), by omega, fun _ h => h.elim⟩
end

/-! ### Client operations -/

/-- What is called before anything is cached handles this much. -/
def Cost (cf cv : Nat) (o : Obj D W E S) (m m' : LMem D W E S) (ok : Prop) : Prop :=
  ∃ n, Steps (MV.content cf cv) m m' n ∧ n ≤ costN cf cv o ∧ (o.Pristine → ok → n = costN cf cv o)

theorem poll_cost [CxxData D] (Θ : Empties D W E S) (moved : MV D W E S → MV D W E S) (hm : ∀ x, (moved x).content cf cv = x.content cf cv) (byRef : Bool)
    (o : Obj D W E S) (ht : Typed o) (hs : Sized cv o) (m : LMem D W E S) (callee : Expr LB) (hcat : callee.cat = .lv) (hlt : callee.addr < m.next)
    (hget : m.get callee.addr = .obj o) (hlive : m.alive callee.addr = true) :
    Cost cf cv o m (withNullptr (callN (lang Θ moved) byRef (sh o)) callee m).2 (isOk (withNullptr (callN (lang Θ moved) byRef (sh o)) callee m).1) := by
  have ka : Keeps (fun _ => False) m (m.alloc .unit) := Keeps.alloc (Keeps.refl _ _) _
  obtain ⟨n, h1, h2, h3⟩ := costN_spec Θ moved hm byRef o ht hs (m.alloc .unit) callee ⟨.nullptr, false, false, .xv, m.next⟩ hcat
    (by rw [alloc_next]; omega) (by rw [ka.frame _ hlt (by simp)]; exact hget) (by rw [ka.alive _ hlt]; exact hlive) (by rw [alloc_next]; simp only; omega) (by simp only; omega)
    (by simp only [alloc_get]; rfl)
  exact ⟨n, (((Steps.alloc _ _ _).trans h1).kill _).cast (Nat.zero_add _), h2, h3⟩

theorem call_cost [CxxData D] (Θ : Empties D W E S) (moved : MV D W E S → MV D W E S) (hm : ∀ x, (moved x).content cf cv = x.content cf cv) (byRef : Bool)
    (inner : Obj D W E S) (ht : Typed inner) (hs : Sized cv inner) (m : LMem D W E S) (callee : Expr LB) (hlt : callee.addr < m.next)
    (hget : m.get callee.addr = .obj (.unregularized (.unwrapped inner))) (hlive : m.alive callee.addr = true) :
    Cost cf cv (.unregularized (.unwrapped inner)) m (callZ (lang Θ moved) byRef (sh (.unregularized (.unwrapped inner) : Obj D W E S)) callee [] m).2
      (isOk (callZ (lang Θ moved) byRef (sh (.unregularized (.unwrapped inner) : Obj D W E S)) callee [] m).1) := by
  obtain ⟨n, h1, h2⟩ := cost_facade Θ moved hm (.unwrapped inner) (callZ (lang Θ moved) byRef (sh (.unwrapped inner : Obj D W E S))) callee [] m hget hlt hlive
    (by simp) (by simp [Apart]) (fun o n => n ≤ costN cf cv (.unwrapped inner : Obj D W E S) ∧ ((.unwrapped inner : Obj D W E S).Pristine → isOk o → n = costN cf cv (.unwrapped inner : Obj D W E S))) (by
      intro m' p ps hp hpl hpg hpa _ _
      obtain ⟨n, g1, g2, g3⟩ := poll_cost Θ moved hm byRef (.unwrapped inner) (by simpa [Typed] using ht) (by simpa [Sized] using hs) m' p hp hpl hpg hpa
      simp only [sh] at g1 g3 ⊢
      simp only [callZ]
      rcases hr : withNullptr (callN (lang Θ moved) byRef (.unwrapped (sh inner))) p m' with ⟨r, m2⟩
      rw [hr] at g1 g3
      simp only at g1 g3
      rcases r with x | e | _ | _ <;> simp only
      · rcases x.read m2 with _ | v
        · exact ⟨n, g1, g2, fun _ h => h.elim⟩
        · exact ⟨n, g1, g2, fun hp _ => g3 hp trivial⟩
      · exact ⟨n, g1, g2, fun _ h => h.elim⟩
      · exact ⟨n, g1, g2, fun _ h => h.elim⟩
      · exact ⟨n, g1, g2, fun _ h => h.elim⟩)
  simp only [sh, callZ, look_eq hlive hget, voidResult, Cost]
  simp only [sh, callZ] at h1 h2
  refine ⟨_, h1, by rw [costN]; omega, fun hp ho => ?_⟩
  rw [costN, h2.2 (by simpa [Obj.Pristine] using hp) (by
    revert ho
    generalize (unregularizedCode _ _ _ _ _ : Out E (Option (Val D)) × LMem D W E S).1 = q
    cases q <;> exact fun h => h)]

/-! ### Trees -/

theorem handled_eq [CxxData D] : ∀ (t : Tree D W E S) (o : Obj D W E S) (d : Nat), Shape t o → t.handled cf cv d = costN cf cv o + 4 * d * o.content cf cv
  | .value v, o, d, h => by
    simp only [Shape] at h
    subst h
    simp [Tree.handled, costN, Obj.content, Nat.add_mul, Nat.add_comm]
  | .function c, o, d, h => by
    simp only [Shape] at h
    obtain ⟨u, cache, -, -, -, rfl⟩ := h
    simp only [Tree.handled, costN, costL, Obj.content, Obj.contents, funCost]
    simp only [Nat.add_mul, Nat.mul_add]
    omega
  | .lazy c ts, o, d, h => by
    simp only [Shape] at h
    obtain ⟨u, cache, ds, -, -, hds, rfl⟩ := h
    have key : ∀ (us : List (Tree D W E S)), (∀ t ∈ us, t ∈ ts) → ∀ os : List (Obj D W E S), ShapeL us os →
        (us.map fun t => t.handled cf cv (d + 1)).sum = costL cf cv os + 4 * (d + 1) * Obj.contents cf cv os := by
      intro us
      induction us with
      | nil =>
        intro _ os h
        simp only [ShapeL] at h
        subst h
        simp [costL, Obj.contents]
      | cons u us ih =>
        intro hu os h
        simp only [ShapeL] at h
        obtain ⟨o, os, h1, h2, rfl⟩ := h
        have hin := hu u (by simp)
        rw [List.map_cons, List.sum_cons, handled_eq u o (d + 1) h1, ih (fun t h => hu t (by simp [h])) os h2]
        simp only [costL, Obj.contents, Nat.mul_add]
        omega
    simp only [Tree.handled, costN, Obj.content, funCost]
    rw [key ts (fun _ h => h) ds hds, hds.length]
    simp only [Nat.add_mul, Nat.mul_add]
    omega

theorem sized_of [CxxData D] : ∀ (t : Tree D W E S) (o : Obj D W E S), Shape t o → cv = 0 ∨ t.NoSingle → Sized cv o
  | .value v, o, h, _ => by
    simp only [Shape] at h
    subst h
    simp [Sized]
  | .function c, o, h, _ => by
    simp only [Shape] at h
    obtain ⟨u, cache, -, -, -, rfl⟩ := h
    simp [Sized, SizedL]
  | .lazy c ts, o, h, hs => by
    simp only [Shape] at h
    obtain ⟨u, cache, ds, -, -, hds, rfl⟩ := h
    have key : ∀ (us : List (Tree D W E S)), (∀ t ∈ us, t ∈ ts) → ∀ os : List (Obj D W E S), ShapeL us os → SizedL cv os := by
      intro us
      induction us with
      | nil =>
        intro _ os h
        simp only [ShapeL] at h
        subst h
        simp [SizedL]
      | cons u us ih =>
        intro hu os h
        simp only [ShapeL] at h
        obtain ⟨o, os, h1, h2, rfl⟩ := h
        have hin := hu u (by simp)
        rw [SizedL]
        refine ⟨sized_of u o h1 (hs.imp_right fun h => ?_), ih (fun t h => hu t (by simp [h])) os h2⟩
        cases h with
        | lazy _ _ _ h2 => exact h2 u hin
    simp only [Sized]
    refine ⟨hs.imp_right fun h => .inl ?_, key ts (fun _ h => h) ds hds⟩
    rw [← hds.length]
    cases h with
    | lazy _ _ h1 _ => exact h1

/-- A call or a poll in any history. -/
theorem op_cost [CxxData D] (Θ : Empties D W E S) (moved : MV D W E S → MV D W E S) (hm : ∀ x, (moved x).content cf cv = x.content cf cv) (byRef : Bool) (w : W)
    (ops : List (Op D W E S)) (i : Nat) (t : Tree D W E S) (ht : (runTrees [] ops)[i]? = some t) (hs : cv = 0 ∨ t.NoSingle) :
    (∃ n, Handled cf cv (runM (lang Θ moved) byRef (MState.init w) ops).2.mem (stepM (lang Θ moved) byRef (runM (lang Θ moved) byRef (MState.init w) ops).2 (.call i)).2.mem n ∧
      n ≤ t.handled cf cv 0 ∧
      ∀ v, (stepM (lang Θ moved) byRef (runM (lang Θ moved) byRef (MState.init w) ops).2 (.call i)).1 = .ret (.ok v) → n = t.handled cf cv 0) ∧
    ∃ n, Handled cf cv (runM (lang Θ moved) byRef (MState.init w) ops).2.mem (stepM (lang Θ moved) byRef (runM (lang Θ moved) byRef (MState.init w) ops).2 (.poll i)).2.mem n ∧
      n ≤ t.handled cf cv 0 ∧
      ∀ r, (stepM (lang Θ moved) byRef (runM (lang Θ moved) byRef (MState.init w) ops).2 (.poll i)).1 = .polled (.ok r) → n = t.handled cf cv 0 := by
  obtain ⟨-, hsim⟩ := runM_spec Θ moved byRef ops (MState.init w) (State.init w) (sim_init w)
  generalize (runM (lang Θ moved) byRef (MState.init w) ops).2 = s at hsim ⊢
  have hinv := reach_inv (written byRef) w ops
  have hpr := reach_pristine (written byRef) (.inl rfl) w ops
  rcases rel2_get hsim.vars i with ⟨-, h2⟩ | ⟨a, o, ha, ho, hv⟩
  · have := hinv.shape.length
    have h1 := (List.getElem?_eq_some_iff.1 ht).1
    rw [List.getElem?_eq_none_iff] at h2
    omega
  · have hso : Shape t o := hinv.shape.get? ht ho
    have hp := hpr i t o ht ho
    obtain ⟨v1, v2, v3, v4⟩ := hv
    have hz := sized_of t o hso hs
    have hh := handled_eq (cf := cf) (cv := cv) t o 0 hso
    rw [Nat.mul_zero, Nat.zero_mul, Nat.add_zero] at hh
    rw [hh]
    obtain ⟨c, us, rfl⟩ := hinv.lz t (List.mem_of_getElem? ht)
    constructor
    · simp only [Shape] at hso
      obtain ⟨u, cache, ds, -, -, -, rfl⟩ := hso
      obtain ⟨n, g1, g2, g3⟩ := call_cost (cf := cf) (cv := cv) Θ moved hm byRef _ (by simpa [Typed] using v4) (by simpa [Sized] using hz) s.mem
        ⟨(lang Θ moved).base (.obj (.unregularized (.unwrapped (.core (.regularized u) cache ds)))), false, false, .lv, a⟩ v1 v2 v3
      simp only [stepM, ha, v2]
      obtain ⟨new, e1, e2, e3⟩ := g1.made
      refine ⟨n, ⟨new, e1, e3⟩, g2, fun v hv => g3 hp ?_⟩
      rw [Seen.ret.injEq] at hv
      rw [hv]
      trivial
    · obtain ⟨n, g1, g2, g3⟩ := poll_cost (cf := cf) (cv := cv) Θ moved hm byRef o v4 hz s.mem ⟨(lang Θ moved).base (.obj o), false, false, .lv, a⟩ rfl v1 v2 v3
      simp only [stepM, ha, v2]
      obtain ⟨new, e1, e2, e3⟩ := g1.made
      refine ⟨n, ⟨new, e1, e3⟩, g2, fun r hr => g3 hp ?_⟩
      rw [Seen.polled.injEq] at hr
      revert hr
      generalize (withNullptr (callN (lang Θ moved) byRef (sh o)) _ s.mem).1 = q
      cases q <;> simp [Out.map, isOk]

end Pigro.LM
