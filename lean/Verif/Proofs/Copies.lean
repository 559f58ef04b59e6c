import Verif.Spec.Copies
import Verif.Proofs.Make
/-!
# Lemmas: which objects are copied and moved
-/
namespace Pigro.Cxx
variable {B V L R : Type}

theorem Made.refl (m : Mem V L) : Made m m [] := ⟨[], by simp, rfl⟩

theorem Made.trans {m m1 m2 : Mem V L} {l l' : List (Bool × Nat)} (h : Made m m1 l) (h' : Made m1 m2 l') : Made m m2 (l ++ l') := by
  obtain ⟨n, h1, h2⟩ := h
  obtain ⟨n', h1', h2'⟩ := h'
  exact ⟨n ++ n', by rw [h1', h1, List.append_assoc], by rw [List.map_append, h2, h2']⟩

theorem Made.of_eq {m m' : Mem V L} (h : m'.inits = m.inits) : Made m m' [] := ⟨[], by simp [h], rfl⟩

theorem made_initFrom (Λ : Lang B V) (e : Expr B) (m : Mem V L) : Made m (Λ.initFrom e m) [e.made] := by
  refine ⟨[⟨decide (e.cat = .xv) && !e.c, e.addr, m.next⟩], ?_, rfl⟩
  rcases hcat : e.cat with _ | _ <;> rcases hc : e.c with _ | _ <;> simp [Lang.initFrom, hcat, hc]

theorem made_fwdCapture (Λ : Lang B V) (e : Expr B) (m : Mem V L) :
    Made m (fwdCapture Λ e m).2 ((rvalues [e]).map Expr.made) := by
  rcases hcat : e.cat with _ | _
  · have : (fwdCapture Λ e m).2 = m := by simp [fwdCapture, deduceFwd, hcat]
    rw [this]
    simpa [rvalues, hcat] using Made.refl m
  · have : (fwdCapture Λ e m).2 = Λ.initFrom e m := by simp [fwdCapture, deduceFwd, hcat]
    rw [this]
    simpa [rvalues, hcat] using made_initFrom Λ e m

theorem rvalues_cons (e : Expr B) (es : List (Expr B)) : rvalues (e :: es) = rvalues [e] ++ rvalues es := by
  simp only [rvalues, List.filter_cons, List.filter_nil]
  split <;> simp

theorem made_captureAll (Λ : Lang B V) (es : List (Expr B)) : ∀ (m : Mem V L),
    Made m (captureAll Λ es m).2 ((rvalues es).map Expr.made) := by
  induction es with
  | nil => intro m; exact Made.refl m
  | cons e es ih =>
    intro m
    rw [rvalues_cons, List.map_append]
    exact (made_fwdCapture Λ e m).trans (ih _)

theorem made_decayAll (Λ : Lang B V) (es : List (Expr B)) : ∀ (m : Mem V L), Made m (decayAll Λ es m).2 (es.map Expr.made) := by
  induction es with
  | nil => intro m; exact Made.refl m
  | cons e es ih =>
    intro m
    exact (made_initFrom Λ e m).trans (ih _)

theorem materialise_inits (Λ : Lang B V) (g : Got B) (m : Mem V L) (e : Expr B) (m' : Mem V L) (h : materialise Λ g m = some (e, m')) :
    m'.inits = m.inits := by
  rcases g with _ | _ | x | x
  · simp [materialise] at h
  · simp [materialise] at h
  · simp only [materialise, Option.some.injEq, Prod.mk.injEq] at h
    rw [← h.2]
  · simp only [materialise, Option.some.injEq, Prod.mk.injEq] at h
    rw [← h.2]; rfl

theorem bindLocal_inits (Λ : Lang B V) (g : Got B) (m : Mem V L) (e : Expr B) (m' : Mem V L) (h : bindLocal Λ g m = some (e, m')) :
    m'.inits = m.inits := by
  simp only [bindLocal, Option.map_eq_some_iff] at h
  obtain ⟨⟨e1, m1⟩, h1, h2⟩ := h
  simp only [Prod.mk.injEq] at h2
  rw [← h2.2]
  exact materialise_inits Λ g m e1 m1 h1

theorem getAll_inits [DecidableEq B] (Λ : Lang B V) (t : Tup B) (c : Bool) (cat : Cat) (is : List Nat) : ∀ (m : Mem V L) (es : List (Expr B))
    (m' : Mem V L), getAll Λ t c cat is m = some (es, m') → m'.inits = m.inits := by
  induction is with
  | nil =>
    intro m es m' h
    simp only [getAll, Option.some.injEq, Prod.mk.injEq] at h
    rw [← h.2]
  | cons i is ih =>
    intro m es m' h
    rw [getAll] at h
    split at h
    · simp at h
    · rename_i e m1 h1
      split at h
      · simp at h
      · rename_i es1 m2 h2
        simp only [Option.some.injEq, Prod.mk.injEq] at h
        rw [← h.2, ih _ _ _ h2, materialise_inits Λ _ _ _ _ h1]

/-- The record at the time the code of a bound callable runs. -/
theorem body_inits [DecidableEq B] (Λ : Lang B V) (b : Bound B) (self : Expr Unit) (args : List (Expr B)) (m : Mem V L)
    (r : Mem V L) (m' : Mem V L) (h : b.body Λ (fun _ _ m => (m, m)) self args m = some (r, m')) :
    (b.dir = .front → Made m r ((rvalues args).map Expr.made)) ∧
    (b.dir = .back → ∃ f m1, bindLocal Λ (callIdx b.lams 0 2 self.named) m = some (f, m1) ∧ Made m r (f.made :: args.map Expr.made)) := by
  rw [Bound.body] at h
  split at h
  · simp at h
  · rename_i f m1 h1
    split at h
    · simp at h
    · rename_i t m2 h2
      have e1 := bindLocal_inits Λ _ _ _ _ h1
      have e2 := bindLocal_inits Λ _ _ _ _ h2
      have hm : Made m m2 [] := Made.of_eq (e2.trans e1)
      have hflv : f.cat = .lv := by
        simp only [bindLocal, Option.map_eq_some_iff, Prod.mk.injEq] at h1
        obtain ⟨x, -, h1, -⟩ := h1
        rw [← h1]; rfl
      rcases hd : b.dir with _ | _
      · refine ⟨fun _ => ?_, by simp⟩
        simp only [hd, apply, applyImpl, bindBack] at h
        split at h
        · simp at h
        · rename_i es m4 h4
          simp only [BackBinder.call, Option.map_some, Option.some.injEq, Prod.mk.injEq] at h
          rw [← h.1]
          have a1 := made_fwdCapture Λ f m2
          have hr : rvalues [f] = [] := by simp [rvalues, hflv]
          rw [hr] at a1
          have a2 := made_captureAll Λ args (fwdCapture Λ f m2).2
          have a3 := getAll_inits Λ _ _ _ _ _ _ _ h4
          simpa using ((hm.trans a1).trans a2).trans (Made.of_eq a3)
      · refine ⟨by simp, fun _ => ⟨f, m1, h1, ?_⟩⟩
        simp only [hd, apply, applyImpl, stdBindFront, decayCopy] at h
        split at h
        · simp at h
        · rename_i es m4 h4
          simp only [FrontBinder.call, Option.map_some, Option.some.injEq, Prod.mk.injEq] at h
          rw [← h.1]
          have a1 := made_initFrom Λ f m2
          have a2 := made_decayAll Λ args (Λ.initFrom f m2)
          have a3 := getAll_inits Λ _ _ _ _ _ _ _ h4
          simpa using ((hm.trans a1).trans a2).trans (Made.of_eq a3)

theorem call_body [DecidableEq B] (Λ : Lang B V) (idxOf : B → Option Nat) (code : Code B V L R) (b : Bound B) (c : Bool) (cat : Cat)
    (args : List (Expr B)) (m : Mem V L) (r : R) (m' : Mem V L)
    (hidx : ∀ e, args = [e] → idxOf e.base ≠ some 0 ∧ idxOf e.base ≠ some 1)
    (h : b.call Λ idxOf code c cat args m = .invoked r m') : b.body Λ code (tupleExpr c cat) args m = some (r, m') := by
  obtain ⟨h0, h1⟩ := loneIndex_ne idxOf args hidx
  simp only [Bound.call] at h
  rw [bound_select b _ h0 h1] at h
  simp only at h
  rw [pick_generic b _ h0 h1] at h
  simp only at h
  split at h
  · rename_i r' m1 h2
    simp only [BRes.invoked.injEq] at h
    rw [← h.1, ← h.2]
    exact h2
  · simp at h

/-! ### Making tuples and bound callables -/

theorem made_castArgs [DecidableEq B] (Λ : Lang B V) (ts : List (Ty B)) : ∀ (es : List (Expr B)) (m : Mem V L) (es' : List (Expr B)) (m' : Mem V L),
    (∀ t ∈ ts, t.ref = .none) → castArgs Λ ts es m = some (es', m') →
    Made m m' (es.map fun e => (false, e.addr)) ∧ (∀ e ∈ es', e.cat = .xv ∧ m.next ≤ e.addr) ∧ es'.map (fun e => e.c) = ts.map (fun t => t.c) := by
  induction ts with
  | nil =>
    intro es m es' m' ht h
    rcases es with _ | ⟨e, es⟩
    · simp only [castArgs, Option.some.injEq, Prod.mk.injEq] at h
      rw [← h.1, ← h.2]
      exact ⟨Made.refl m, by simp, rfl⟩
    · simp [castArgs] at h
  | cons t ts ih =>
    intro es m es' m' ht h
    rcases es with _ | ⟨e, es⟩
    · simp [castArgs] at h
    · rw [castArgs] at h
      split at h
      · simp at h
      · rename_i e1 m1 h1
        split at h
        · simp at h
        · rename_i es2 m2 h2
          simp only [Option.some.injEq, Prod.mk.injEq] at h
          rw [castArg, ht t (by simp)] at h1
          simp only [Option.ite_none_right_eq_some, Option.some.injEq, Prod.mk.injEq] at h1
          obtain ⟨-, h1, h1'⟩ := h1
          obtain ⟨a, b, c⟩ := ih es m1 es2 m2 (fun t h => ht t (by simp [h])) h2
          have hn : m1.next = m.next + 1 := by rw [← h1']; simp [Lang.initFrom, Expr.named, Mem.alloc]
          rw [← h.1, ← h.2]
          refine ⟨?_, ?_, ?_⟩
          · have := (made_initFrom Λ e.named m)
            rw [h1'] at this
            simpa [Expr.made, Expr.named] using this.trans a
          · intro e' he'
            rcases List.mem_cons.1 he' with rfl | he'
            · rw [← h1]; exact ⟨rfl, Nat.le_refl _⟩
            · have := b e' he'; exact ⟨this.1, by omega⟩
          · rw [List.map_cons, List.map_cons, c, ← h1]

theorem made_element (Λ : Lang B V) (e : Expr B) (m : Mem V L) :
    Made m (compressedTupleElement Λ e m).2 (if Λ.isEmpty e.base then [] else (rvalues [e]).map Expr.made) := by
  have : Λ.emptyTy e.type = Λ.isEmpty e.base := by simp [Lang.emptyTy, Expr.type, Ty.removeCvref, Ty.removeReference, Ty.removeCv]
  simp only [compressedTupleElement, this]
  split
  · exact Made.refl m
  · exact made_fwdCapture Λ e m

theorem made_mkElems (Λ : Lang B V) (es : List (Expr B)) : ∀ (m : Mem V L),
    Made m (mkElems Λ es m).2 ((rvalues (es.filter fun e => !Λ.isEmpty e.base)).map Expr.made) := by
  induction es with
  | nil => intro m; exact Made.refl m
  | cons e es ih =>
    intro m
    have h := (made_element Λ e m).trans (ih _)
    simp only [mkElems]
    rcases he : Λ.isEmpty e.base with _ | _
    · simp only [he, Bool.not_false, List.filter_cons_of_pos, Bool.false_eq_true, if_false] at h ⊢
      rw [rvalues_cons, List.map_append]
      exact h
    · simpa [he] using h

/-- What is done with an element of a tuple used as an expression of the given category when a new tuple is initialised from it. -/
def Elem.remade (cat : Cat) : Elem B → Option (Bool × Nat)
  | .empty _ => none
  | .stored ty a => if ty.ref = .lref then none else some (decide (cat = .xv) && !ty.c, a)

theorem made_initElems (Λ : Lang B V) (cat : Cat) (els : List (Elem B)) : ∀ (m : Mem V L),
    Made m (initElems Λ false cat els m).2 (els.filterMap (Elem.remade cat)) := by
  induction els with
  | nil => intro m; exact Made.refl m
  | cons el els ih =>
    intro m
    rcases el with b | ⟨ty, a⟩
    · exact ih m
    · rcases hr : ty.ref with _ | _ | _
      · have h := (made_initFrom Λ ⟨ty.base, ty.c || false, ty.v, cat, a⟩ m).trans (ih _)
        simpa [initElems, hr, Elem.remade, Expr.made] using h
      · simpa [initElems, hr, Elem.remade] using ih m
      · have h := (made_initFrom Λ ⟨ty.base, ty.c || false, ty.v, cat, a⟩ m).trans (ih _)
        simpa [initElems, hr, Elem.remade, Expr.made] using h

/-- The elements made from temporaries are new objects, one for each temporary that is not of empty type. -/
theorem mkElems_remade (Λ : Lang B V) (es : List (Expr B)) : ∀ (m : Mem V L), (∀ e ∈ es, e.cat = .xv ∧ e.c = false) →
    ∃ as : List Nat, (mkElems Λ es m).1.filterMap (Elem.remade .xv) = as.map (fun a => (true, a)) ∧ (∀ a ∈ as, m.next ≤ a) ∧
      as.length = (es.filter fun e => !Λ.isEmpty e.base).length := by
  induction es with
  | nil => intro m _; exact ⟨[], rfl, by simp, rfl⟩
  | cons e es ih =>
    intro m he
    obtain ⟨h1, h2⟩ := he e (by simp)
    have hE : Λ.emptyTy e.type = Λ.isEmpty e.base := by simp [Lang.emptyTy, Expr.type, Ty.removeCvref, Ty.removeReference, Ty.removeCv]
    rcases hb : Λ.isEmpty e.base with _ | _
    · obtain ⟨as, a1, a2, a3⟩ := ih (Λ.initFrom e m) (fun e' h' => he e' (by simp [h']))
      have hn : m.next ≤ (Λ.initFrom e m).next := by
        simp [Lang.initFrom, h1, h2, Mem.write, Mem.alloc]
      refine ⟨m.next :: as, ?_, ?_, by simp [hb, a3]⟩
      · have hx : compressedTupleElement Λ e m = (.stored ⟨e.base, e.c, e.v, .none⟩ m.next, Λ.initFrom e m) := by
          simp [compressedTupleElement, hE, hb, fwdCapture, deduceFwd, h1]
        simp only [mkElems, hx, List.filterMap_cons, Elem.remade, reduceCtorEq, if_false, h2, a1, List.map_cons]
        rfl
      · intro a ha
        rcases List.mem_cons.1 ha with rfl | ha
        · exact Nat.le_refl _
        · have := a2 a ha; omega
    · obtain ⟨as, a1, a2, a3⟩ := ih m (fun e' h' => he e' (by simp [h']))
      refine ⟨as, ?_, a2, by simp [hb, a3]⟩
      have hx : compressedTupleElement Λ e m = (.empty e.base, m) := by
        rw [compressedTupleElement, hE, hb]; rfl
      simp only [mkElems, hx, List.filterMap_cons, Elem.remade, a1]

theorem castArgs_bases [DecidableEq B] (Λ : Lang B V) (ts : List (Ty B)) : ∀ (es : List (Expr B)) (m : Mem V L) (es' : List (Expr B)) (m' : Mem V L),
    (∀ t ∈ ts, t.ref = .none) → castArgs Λ ts es m = some (es', m') → es'.map (fun e => e.base) = es.map (fun e => e.base) ∧ m.next ≤ m'.next := by
  induction ts with
  | nil =>
    intro es m es' m' ht h
    rcases es with _ | ⟨e, es⟩
    · simp only [castArgs, Option.some.injEq, Prod.mk.injEq] at h
      rw [← h.1, ← h.2]
      exact ⟨rfl, Nat.le_refl _⟩
    · simp [castArgs] at h
  | cons t ts ih =>
    intro es m es' m' ht h
    rcases es with _ | ⟨e, es⟩
    · simp [castArgs] at h
    · rw [castArgs] at h
      split at h
      · simp at h
      · rename_i e1 m1 h1
        split at h
        · simp at h
        · rename_i es2 m2 h2
          simp only [Option.some.injEq, Prod.mk.injEq] at h
          rw [castArg, ht t (by simp)] at h1
          simp only [Option.ite_none_right_eq_some, Option.some.injEq, Prod.mk.injEq] at h1
          obtain ⟨hb, h1, h1'⟩ := h1
          obtain ⟨a, b⟩ := ih es m1 es2 m2 (fun t h => ht t (by simp [h])) h2
          have hn : m1.next = m.next + 1 := by rw [← h1']; simp [Lang.initFrom, Expr.named, Mem.alloc]
          rw [← h.1, ← h.2]
          refine ⟨?_, by omega⟩
          rw [List.map_cons, List.map_cons, a, ← h1, hb]

theorem mkElems_next (Λ : Lang B V) (es : List (Expr B)) : ∀ (m : Mem V L), m.next ≤ (mkElems Λ es m).2.next := by
  induction es with
  | nil => intro m; exact Nat.le_refl _
  | cons e es ih =>
    intro m
    refine Nat.le_trans ?_ (ih (compressedTupleElement Λ e m).2)
    simp only [compressedTupleElement]
    split
    · exact Nat.le_refl _
    · simp only [fwdCapture]
      split
      · exact Nat.le_refl _
      · simp only [Lang.initFrom]
        split <;> simp [Mem.alloc, Mem.write]

/-- The types deduced for a `compressed_tuple` are those of unqualified objects. -/
theorem ctad_types (isCT : B → Bool) (es : List (Expr B)) (ts : List (Ty B)) (h : ctad isCT es = some ts) :
    ∀ t ∈ ts, t.ref = .none ∧ t.c = false := by
  have h' : ts = es.map fun e => e.type.removeCvref := by
    rcases es with _ | ⟨e, _ | ⟨e', es⟩⟩
    · simp only [ctad, Option.some.injEq] at h; exact h.symm
    · simp only [ctad] at h
      split at h
      · simp at h
      · simp only [Option.some.injEq] at h; exact h.symm
    · simp only [ctad, Option.some.injEq] at h; exact h.symm
  intro t ht
  rw [h', List.mem_map] at ht
  obtain ⟨e, -, rfl⟩ := ht
  exact ⟨rfl, rfl⟩

/-- Everything copied and moved by `compressed_tuple{ vs... }`. -/
theorem made_construct [DecidableEq B] (Λ : Lang B V) (isCT : B → Bool) (es : List (Expr B)) (ts : List (Ty B)) (m : Mem V L) (els : List (Elem B))
    (m' : Mem V L) (hts : ctad isCT es = some ts) (h : construct Λ ts es m = some (els, m')) :
    ∃ temps stored : List Nat,
      Made m m' ((es.map fun e => (false, e.addr)) ++ temps.map fun a => (true, a)) ∧
      els.filterMap (Elem.remade .xv) = stored.map (fun a => (true, a)) ∧
      (∀ a ∈ temps ++ stored, m.next ≤ a) ∧ m.next ≤ m'.next ∧
      temps.length = (es.filter fun e => !Λ.isEmpty e.base).length ∧ stored.length = (es.filter fun e => !Λ.isEmpty e.base).length := by
  have ht := ctad_types isCT es ts hts
  simp only [construct, Option.map_eq_some_iff] at h
  obtain ⟨⟨es', m1⟩, h1, h2⟩ := h
  rw [makeBase_eq] at h2
  obtain ⟨c1, c2, c3⟩ := made_castArgs Λ ts es m es' m1 (fun t h => (ht t h).1) h1
  obtain ⟨b1, b2⟩ := castArgs_bases Λ ts es m es' m1 (fun t h => (ht t h).1) h1
  have hc : ∀ e ∈ es', e.c = false := by
    intro e he
    have : e.c ∈ es'.map fun e => e.c := List.mem_map.2 ⟨e, he, rfl⟩
    rw [c3, List.mem_map] at this
    obtain ⟨t, h, h'⟩ := this
    rw [← h', (ht t h).2]
  obtain ⟨as, a1, a2, a3⟩ := mkElems_remade Λ es' m1 fun e he => ⟨(c2 e he).1, hc e he⟩
  have hlen : (es'.filter fun e => !Λ.isEmpty e.base).length = (es.filter fun e => !Λ.isEmpty e.base).length := by
    have : ∀ l : List (Expr B), (l.filter fun e => !Λ.isEmpty e.base).length = ((l.map fun e => e.base).filter fun b => !Λ.isEmpty b).length := by
      intro l
      rw [List.filter_map, List.length_map]
      rfl
    rw [this, b1, ← this]
  have hm := made_mkElems Λ es' m1
  have hl : ((rvalues (es'.filter fun e => !Λ.isEmpty e.base)).map Expr.made) =
      ((es'.filter fun e => !Λ.isEmpty e.base).map fun e => e.addr).map fun a => (true, a) := by
    have hr : rvalues (es'.filter fun e => !Λ.isEmpty e.base) = es'.filter fun e => !Λ.isEmpty e.base := by
      rw [rvalues, List.filter_eq_self]
      intro e he
      simp [(c2 e (List.mem_filter.1 he).1).1]
    rw [hr, List.map_map]
    apply List.map_congr_left
    intro e he
    have he := (List.mem_filter.1 he).1
    simp [Expr.made, (c2 e he).1, hc e he]
  rw [hl, h2] at hm
  rw [h2] at a1
  refine ⟨_, as, c1.trans hm, a1, ?_, ?_, by simpa using hlen, by rw [a3, hlen]⟩
  · intro a ha
    rcases List.mem_append.1 ha with ha | ha
    · obtain ⟨e, he, rfl⟩ := List.mem_map.1 ha
      exact (c2 e (List.mem_filter.1 he).1).2
    · have := a2 a ha; omega
  · have := mkElems_next Λ es' m1
    rw [h2] at this
    exact Nat.le_trans b2 this

/-- Everything copied and moved by `compressed_tuple{ vs... } >> f` or `<< f`. -/
theorem made_makeBound [DecidableEq B] (Λ : Lang B V) (isCT : B → Bool) (tb : B) (dir : Dir) (vs : List (Expr B)) (f : Expr B)
    (m : Mem V L) (b : Bound B) (m' : Mem V L) (h : makeBound Λ isCT tb dir vs f m = some (b, m')) :
    ∃ (temps : List Nat) (tuple : Nat) (stored : List Nat),
      Made m m' ((vs.map fun e => (false, e.addr)) ++ (temps.map fun a => (true, a)) ++
        (if Λ.isEmpty f.base then [] else (rvalues [f]).map Expr.made) ++
        (if Λ.isEmpty tb then [] else (tuple :: stored).map fun a => (true, a))) ∧
      (∀ a ∈ temps ++ tuple :: stored, m.next ≤ a) ∧
      temps.length = (vs.filter fun e => !Λ.isEmpty e.base).length ∧ stored.length = (vs.filter fun e => !Λ.isEmpty e.base).length := by
  rw [makeBound] at h
  split at h
  · simp at h
  · rename_i ts hts
    split at h
    · simp at h
    · rename_i els m1 h1
      obtain ⟨temps, stored, k1, k2, k3, k4, k5, k6⟩ := made_construct Λ isCT vs ts m els m1 hts h1
      have hb : bindTuple Λ dir f ⟨tb, false, false, .xv, m1.next⟩ els (m1.alloc (Λ.default tb)) = some (b, m') := by
        rcases dir with _ | _ <;> exact h
      refine ⟨temps, m1.next, stored, ?_, ?_, k5, k6⟩
      · have g1 : Made m (m1.alloc (Λ.default tb)) ((vs.map fun e => (false, e.addr)) ++ temps.map fun a => (true, a)) := by
          simpa using k1.trans (Made.of_eq (m := m1) (m' := m1.alloc (Λ.default tb)) rfl)
        have g2 := g1.trans (made_element Λ f (m1.alloc (Λ.default tb)))
        rw [bindTuple] at hb
        generalize compressedTupleElement Λ f (m1.alloc (Λ.default tb)) = F at g2 hb
        obtain ⟨fel, mf⟩ := F
        simp only at g2 hb
        have hE : Λ.emptyTy (⟨tb, false, false, .xv, m1.next⟩ : Expr B).type = Λ.isEmpty tb := by
          simp [Lang.emptyTy, Expr.type, Ty.removeCvref, Ty.removeReference, Ty.removeCv]
        rcases htb : Λ.isEmpty tb with _ | _
        · have ht : compressedTupleElement Λ ⟨tb, false, false, .xv, m1.next⟩ mf =
              (.stored ⟨tb, false, false, .none⟩ mf.next, Λ.initFrom ⟨tb, false, false, .xv, m1.next⟩ mf) := by
            simp [compressedTupleElement, hE, htb, fwdCapture, deduceFwd]
          rw [ht] at hb
          simp only at hb
          have hinit : initTuple Λ false .xv els (Λ.initFrom ⟨tb, false, false, .xv, m1.next⟩ mf) =
              some (initElems Λ false .xv els (Λ.initFrom ⟨tb, false, false, .xv, m1.next⟩ mf)) := by
            rcases els with _ | ⟨x, _ | ⟨y, els⟩⟩ <;> rfl
          rw [hinit] at hb
          simp only [Option.some.injEq, Prod.mk.injEq] at hb
          have g3 := (g2.trans (made_initFrom Λ ⟨tb, false, false, .xv, m1.next⟩ mf)).trans (made_initElems Λ .xv els _)
          rw [k2] at g3
          rw [← hb.2]
          simpa [Expr.made] using g3
        · have ht : compressedTupleElement Λ ⟨tb, false, false, .xv, m1.next⟩ mf = (.empty tb, mf) := by
            rw [compressedTupleElement, hE, htb]; rfl
          rw [ht] at hb
          simp only [Option.some.injEq, Prod.mk.injEq] at hb
          rw [← hb.2]
          simpa using g2
      · intro a ha
        rcases List.mem_append.1 ha with ha | ha
        · exact k3 a (by simp [ha])
        · rcases List.mem_cons.1 ha with rfl | ha
          · exact k4
          · exact k3 a (by simp [ha])

end Pigro.Cxx
