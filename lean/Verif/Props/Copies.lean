import Verif.Proofs.Copies
import Verif.Props.Bind
/-!
# C62-C64: copies and moves
-/
namespace Pigro.Cxx
variable {B V L R : Type}

/-! ### C62 -/

/-- **C62**. `bind_back(f, back...)` moves each rvalue (a const one is copied) exactly once, in order, and neither copies nor moves lvalues. A call
`g(front...)`, in whatever memory, is the call of the code on the captured objects or on the lvalues themselves, with `front...` as they are given:
nothing is copied or moved. -/
theorem C62_bind_back (Λ : Lang B V) (f : Expr B) (back : List (Expr B)) (m : Mem V L) (hlt : ∀ e ∈ f :: back, e.addr < m.next)
    (hx : XvApart (f :: back)) :
    let g := bindBack Λ f back m
    Made m g.2 ((rvalues (f :: back)).map Expr.made) ∧
    ∃ fe as, Captured m g.2 f fe ∧ Pairs (Captured m g.2) back as ∧
      ∀ (R : Type) (code : Code B V L R) (front : List (Expr B)) (m' : Mem V L), g.1.call code front m' = code fe (front ++ as) m' := by
  intro g
  obtain ⟨-, hl, h⟩ := captureAll_spec Λ (f :: back) m hlt hx
  refine ⟨made_captureAll Λ (f :: back) m, g.1.f.accessLv, g.1.args.map Elem.accessLv, ?_, ?_, fun _ _ _ _ => rfl⟩
  · obtain ⟨e', h1, h2⟩ := h 0 f rfl
    have : e' = g.1.f.accessLv := by
      simp only [captureAll, List.map_cons, List.getElem?_cons_zero, Option.some.injEq] at h1
      exact h1.symm
    rw [this] at h2
    exact h2
  · refine ⟨?_, fun i e hi => ?_⟩
    · simp only [captureAll, List.length_cons, Nat.add_right_cancel_iff] at hl
      rw [List.length_map]; exact hl
    · obtain ⟨e', h1, h2⟩ := h (i + 1) e (by simpa using hi)
      refine ⟨e', ?_, h2⟩
      simp only [captureAll, List.map_cons, List.getElem?_cons_succ] at h1
      exact h1

/-- No copies at all, if no argument is a const rvalue: `bind_back` works for types that can only be moved. -/
theorem C62_no_copies (Λ : Lang B V) (f : Expr B) (back : List (Expr B)) (m : Mem V L)
    (hc : ∀ e ∈ f :: back, e.cat = .xv → e.c = false) : ∃ l, Made m (bindBack Λ f back m).2 l ∧ copied l = [] := by
  refine ⟨_, made_captureAll Λ (f :: back) m, ?_⟩
  rw [copied, List.map_eq_nil_iff, List.filter_eq_nil_iff]
  intro p hp
  obtain ⟨e, he, rfl⟩ := List.mem_map.1 hp
  obtain ⟨he, hcat⟩ := List.mem_filter.1 he
  have hcat := of_decide_eq_true hcat
  simp [Expr.made, hcat, hc e he hcat]

/-- A callable passed as a temporary, a value passed as an lvalue and one as a temporary: two moves, no copy. -/
example : ∃ l, Made (memOf [7, 8, 9]) (bindBack exLang ⟨"f", false, false, .xv, 0⟩ [⟨"int", false, false, .lv, 1⟩, ⟨"int", false, false, .xv, 2⟩]
    (memOf [7, 8, 9])).2 l ∧ l = [(true, 0), (true, 2)] ∧ copied l = [] :=
  ⟨_, (C62_bind_back exLang ⟨"f", false, false, .xv, 0⟩ [⟨"int", false, false, .lv, 1⟩, ⟨"int", false, false, .xv, 2⟩] (memOf [7, 8, 9])
    (by simp [memOf]) (by simp [XvApart])).1, by decide, by decide⟩

/-! ### C63 -/
variable [DecidableEq B]

/-- **C63** (for `>>`; partial as C22: not for a lone argument `idx_t<0>` or `idx_t<1>`). Until the code of `f` runs, a call of `t >> f` copies and moves
nothing but the rvalue arguments, each once; neither `f` nor the bound values. Afterwards nothing is copied or moved any more. -/
theorem C63_front_partial (Λ : Lang B V) (idxOf : B → Option Nat) (b : Bound B) (hd : b.dir = .front) (c : Bool)
    (cat : Cat) (args : List (Expr B)) (m : Mem V L) (hok : b.ConstOk c)
    (hidx : ∀ e, args = [e] → idxOf e.base ≠ some 0 ∧ idxOf e.base ≠ some 1)
    (hlt : ∀ e ∈ args, e.addr < m.next) (hx : XvApart args) :
    ∃ fe es m', Made m m' ((rvalues args).map Expr.made) ∧
      ∀ (R : Type) (code : Code B V L R), ∃ m'', b.call Λ idxOf code c cat args m = .invoked (code fe es m').1 m'' ∧ Made (code fe es m').2 m'' [] := by
  obtain ⟨fe, ts, as, m', -, -, -, -, -, h⟩ := C22_any_state_partial Λ idxOf b hd c cat args m hok hidx hlt hx
  refine ⟨fe, ts ++ as, m', ?_, fun R code => ⟨_, h R code, Made.of_eq rfl⟩⟩
  have hs := call_body Λ idxOf _ b c cat args m _ _ hidx (h (Mem V L) fun _ _ m => (m, m))
  exact (body_inits Λ b _ args m _ _ hs).1 hd

/-- No copies at all, if no argument is a const rvalue. -/
theorem C63_front_no_copies_partial (Λ : Lang B V) (idxOf : B → Option Nat) (b : Bound B) (hd : b.dir = .front) (c : Bool)
    (cat : Cat) (args : List (Expr B)) (m : Mem V L) (hok : b.ConstOk c)
    (hidx : ∀ e, args = [e] → idxOf e.base ≠ some 0 ∧ idxOf e.base ≠ some 1)
    (hlt : ∀ e ∈ args, e.addr < m.next) (hx : XvApart args) (hc : ∀ e ∈ args, e.cat = .xv → e.c = false) :
    ∃ fe es m' l, Made m m' l ∧ copied l = [] ∧
      ∀ (R : Type) (code : Code B V L R), ∃ m'', b.call Λ idxOf code c cat args m = .invoked (code fe es m').1 m'' := by
  obtain ⟨fe, es, m', h1, h2⟩ := C63_front_partial Λ idxOf b hd c cat args m hok hidx hlt hx
  refine ⟨fe, es, m', _, h1, ?_, fun R code => ⟨_, (h2 R code).choose_spec.1⟩⟩
  rw [copied, List.map_eq_nil_iff, List.filter_eq_nil_iff]
  intro p hp
  obtain ⟨e, he, rfl⟩ := List.mem_map.1 hp
  obtain ⟨he, hcat⟩ := List.mem_filter.1 he
  have hcat := of_decide_eq_true hcat
  simp [Expr.made, hcat, hc e he hcat]

/-- **C63 is false for `<<`**: a call of `t << f` copies the stored callable (one of empty type: made anew, then copied), and then every argument:
lvalues are copied, rvalues moved. The bound values are not copied. -/
theorem C63_back_copies (Λ : Lang B V) (idxOf : B → Option Nat) (b : Bound B) (hd : b.dir = .back) (c : Bool)
    (cat : Cat) (args : List (Expr B)) (m : Mem V L) (hok : b.ConstOk c) (hr : b.InRange m.next)
    (hidx : ∀ e, args = [e] → idxOf e.base ≠ some 0 ∧ idxOf e.base ≠ some 1)
    (hlt : ∀ e ∈ args, e.addr < m.next) (hx : Apart args) :
    ∃ fe es m' a, (match b.f with | .stored _ addr => a = addr | .empty _ => m.next ≤ a) ∧ Made m m' ((false, a) :: args.map Expr.made) ∧
      ∀ (R : Type) (code : Code B V L R), ∃ m'', b.call Λ idxOf code c cat args m = .invoked (code fe es m').1 m'' ∧ Made (code fe es m').2 m'' [] := by
  obtain ⟨fe, ts, as, m', -, -, -, -, -, h⟩ := C23_any_state_partial Λ idxOf b hd c cat args m hok hr hidx hlt hx
  have hs := call_body Λ idxOf _ b c cat args m _ _ hidx (h (Mem V L) fun _ _ m => (m, m))
  obtain ⟨f, m1, hf, hm⟩ := (body_inits Λ b _ args m _ _ hs).2 hd
  obtain ⟨f', t, m1', m2, l1, -, -, -, hf', -⟩ := bound_locals Λ b c cat m hok
  rw [hf] at l1
  simp only [Option.some.injEq, Prod.mk.injEq] at l1
  rw [← l1.1] at hf'
  have hcat : f.cat = .lv := by
    simp only [bindLocal, Option.map_eq_some_iff, Prod.mk.injEq] at hf
    obtain ⟨x, -, hf, -⟩ := hf
    rw [← hf]; rfl
  have hmade : f.made = (false, f.addr) := by simp [Expr.made, hcat]
  rw [hmade] at hm
  refine ⟨fe, as ++ ts, m', f.addr, ?_, hm, fun R code => ⟨_, h R code, Made.of_eq rfl⟩⟩
  rcases hbf : b.f with x | ⟨ty, a⟩
  · rw [hbf] at hf'
    exact hf'.2.2.2.2.1
  · rw [hbf] at hf'
    rw [hf']

/-- A callable with state and a bound value, called with an lvalue and a temporary. With `>>` the temporary is moved, nothing copied; with `<<` the callable
and the lvalue are copied. -/
example : let b : Dir → Bound String := fun d => ⟨d, .stored ⟨"f", false, false, .none⟩ 0, .stored ⟨"tuple", false, false, .none⟩ 1,
      [.stored ⟨"int", false, false, .none⟩ 2]⟩
    let args : List (Expr String) := [⟨"int", false, false, .lv, 3⟩, ⟨"int", false, false, .xv, 4⟩]
    (∃ fe es m', Made (memOf [5, 6, 7, 8, 9]) m' [(true, 4)] ∧ ∀ (R : Type) (code : Code String Nat Unit R), ∃ m'',
      (b .front).call exLang exIdx code false .lv args (memOf [5, 6, 7, 8, 9]) = .invoked (code fe es m').1 m'' ∧ Made (code fe es m').2 m'' []) ∧
    (∃ fe es m' a, a = 0 ∧ Made (memOf [5, 6, 7, 8, 9]) m' [(false, a), (false, 3), (true, 4)] ∧ ∀ (R : Type) (code : Code String Nat Unit R), ∃ m'',
      (b .back).call exLang exIdx code false .lv args (memOf [5, 6, 7, 8, 9]) = .invoked (code fe es m').1 m'' ∧ Made (code fe es m').2 m'' []) := by
  intro b args
  have ok : ∀ d, (b d).ConstOk false := fun d => ⟨by simp [Elem.constOk, b], by simp [Elem.constOk, b], by simp [Elem.constOk, Bound.tupleConst, b]⟩
  constructor
  · exact C63_front_partial exLang exIdx (b .front) rfl false .lv args (memOf [5, 6, 7, 8, 9]) (ok _) (by simp [args])
      (by simp [args, memOf]) (by simp [XvApart, args])
  · exact C63_back_copies exLang exIdx (b .back) rfl false .lv args (memOf [5, 6, 7, 8, 9]) (ok _) (by simp [Bound.InRange, b, memOf])
      (by simp [args]) (by simp [args, memOf]) (by simp [Apart, args])

/-! ### C64 -/

/-- Taking the copies out of a record. -/
theorem copied_append (l l' : List (Bool × Nat)) : copied (l ++ l') = copied l ++ copied l' := by simp [copied]

/-- Likewise for moves. -/
theorem movedFrom_append (l l' : List (Bool × Nat)) : movedFrom (l ++ l') = movedFrom l ++ movedFrom l' := by simp [movedFrom]

theorem copied_moves (l : List Nat) : copied (l.map fun a => (true, a)) = [] := by
  simp [copied, List.filter_eq_nil_iff]

theorem movedFrom_moves (l : List Nat) : movedFrom (l.map fun a => (true, a)) = l := by
  induction l with
  | nil => rfl
  | cons a l ih => simpa [movedFrom] using ih

omit [DecidableEq B] in
theorem copied_copies (es : List (Expr B)) : copied (es.map fun e => (false, e.addr)) = es.map fun e => e.addr := by
  induction es with
  | nil => rfl
  | cons a l ih => simpa [copied] using ih

omit [DecidableEq B] in
theorem movedFrom_copies (es : List (Expr B)) : movedFrom (es.map fun e => (false, e.addr)) = [] := by
  induction es with
  | nil => rfl
  | cons a l ih => simp [movedFrom]

/-- **C64** (partial: rvalues are copied too). Making `compressed_tuple{ v... } >> f` (or `<<`) copies every value exactly once, in order, whether it is an
lvalue or an rvalue, and nothing else, unless `f` is a const rvalue; what is moved from are `f`, if it is an rvalue of a type that is not empty, and objects made on the way: twice
per value that is not of empty type, once the tuple, if it is not of empty type. The values themselves are not moved from. -/
theorem C64_one_copy_partial (Λ : Lang B V) (isCT : B → Bool) (tb : B) (dir : Dir) (vs : List (Expr B)) (f : Expr B)
    (m : Mem V L) (b : Bound B) (m' : Mem V L) (hf : f.cat = .xv → f.c = false) (hE : Λ.isEmpty tb = vs.all fun e => Λ.isEmpty e.base)
    (h : makeBound Λ isCT tb dir vs f m = some (b, m')) :
    ∃ l, Made m m' l ∧ copied l = (vs.map fun e => e.addr) ∧
      (movedFrom l).length = 2 * (vs.filter fun e => !Λ.isEmpty e.base).length + (if Λ.isEmpty f.base then 0 else if f.cat = .xv then 1 else 0) +
        (if Λ.isEmpty tb then 0 else 1) ∧
      ∀ a ∈ movedFrom l, m.next ≤ a ∨ (a = f.addr ∧ f.cat = .xv ∧ Λ.isEmpty f.base = false) := by
  obtain ⟨temps, tuple, stored, h1, h2, h3, h4⟩ := made_makeBound Λ isCT tb dir vs f m b m' h
  have hfl : (if Λ.isEmpty f.base then [] else (rvalues [f]).map Expr.made) =
      (if Λ.isEmpty f.base then [] else if f.cat = .xv then [f.addr] else []).map fun a => (true, a) := by
    rcases Λ.isEmpty f.base with _ | _
    · rcases hc : f.cat with _ | _
      · simp [rvalues, hc]
      · simp [rvalues, hc, Expr.made, hf hc]
    · rfl
  have htl : (if Λ.isEmpty tb then [] else (tuple :: stored).map fun a => (true, a)) =
      (if Λ.isEmpty tb then [] else tuple :: stored).map fun a => (true, a) := by
    split <;> rfl
  rw [hfl, htl] at h1
  refine ⟨_, h1, ?_, ?_, ?_⟩
  · simp only [copied_append, copied_moves, copied_copies, List.append_nil]
  · simp only [movedFrom_append, movedFrom_moves, movedFrom_copies, List.nil_append, List.length_append, h3]
    have hs : (if Λ.isEmpty tb then [] else tuple :: stored).length = (vs.filter fun e => !Λ.isEmpty e.base).length + if Λ.isEmpty tb then 0 else 1 := by
      rcases ht : Λ.isEmpty tb with _ | _
      · simp [h4]
      · rw [ht] at hE
        have : vs.filter (fun e => !Λ.isEmpty e.base) = [] := by
          rw [List.filter_eq_nil_iff]
          intro e he
          simp [List.all_eq_true.1 hE.symm e he]
        simp [this]
    rw [hs]
    rcases Λ.isEmpty f.base with _ | _ <;> rcases f.cat with _ | _ <;> simp <;> omega
  · intro a ha
    simp only [movedFrom_append, movedFrom_moves, movedFrom_copies, List.nil_append] at ha
    rcases List.mem_append.1 ha with ha | ha
    · rcases List.mem_append.1 ha with ha | ha
      · exact .inl (h2 a (by simp [ha]))
      · rcases he : Λ.isEmpty f.base with _ | _
        · rcases hc : f.cat with _ | _
          · simp [he, hc] at ha
          · simp only [he, hc, Bool.false_eq_true, if_false, if_true, List.mem_singleton] at ha
            exact .inr ⟨ha, rfl, rfl⟩
        · simp [he] at ha
    · rcases he : Λ.isEmpty tb with _ | _
      · simp only [he, Bool.false_eq_true, if_false] at ha
        exact .inl (h2 a (by simp only [List.mem_append]; exact .inr ha))
      · simp [he] at ha

/-- **C64 is false**: a value given as an rvalue is copied, not moved; so no type that can only be moved can be put into a tuple this way. -/
theorem C64_rvalues_copied (Λ : Lang B V) (isCT : B → Bool) (tb : B) (dir : Dir) (vs : List (Expr B)) (f : Expr B)
    (m : Mem V L) (b : Bound B) (m' : Mem V L) (hf : f.cat = .xv → f.c = false) (hE : Λ.isEmpty tb = vs.all fun e => Λ.isEmpty e.base)
    (h : makeBound Λ isCT tb dir vs f m = some (b, m')) (e : Expr B) (he : e ∈ vs) (hlt : e.addr < m.next) (hne : e.addr ≠ f.addr) :
    ∃ l, Made m m' l ∧ e.addr ∈ copied l ∧ e.addr ∉ movedFrom l := by
  obtain ⟨l, h1, h2, -, h4⟩ := C64_one_copy_partial Λ isCT tb dir vs f m b m' hf hE h
  refine ⟨l, h1, ?_, fun hm => ?_⟩
  · rw [h2]; exact List.mem_map.2 ⟨e, he, rfl⟩
  · rcases h4 _ hm with h | h
    · omega
    · exact hne h.1

theorem castArgs_refs (Λ : Lang B V) (ts : List (Ty B)) : ∀ (es : List (Expr B)) (m : Mem V L) (es' : List (Expr B)) (m' : Mem V L),
    (∀ t ∈ ts, t.ref ≠ .none) → castArgs Λ ts es m = some (es', m') → m' = m ∧ es' = List.zipWith (fun t e => Expr.ofRef t e.addr) ts es := by
  induction ts with
  | nil =>
    intro es m es' m' ht h
    rcases es with _ | ⟨e, es⟩
    · simp only [castArgs, Option.some.injEq, Prod.mk.injEq] at h
      exact ⟨h.2.symm, h.1.symm⟩
    · simp [castArgs] at h
  | cons t ts ih =>
    intro es m es' m' ht h
    rcases es with _ | ⟨e, es⟩
    · simp [castArgs] at h
    · rw [castArgs] at h
      split at h
      · simp at h
      · rename_i e1 m1 h1
        split at h
        · simp at h
        · rename_i es2 m2 h2
          simp only [Option.some.injEq, Prod.mk.injEq] at h
          have hr := ht t (by simp)
          have h1' : e1 = Expr.ofRef t e.addr ∧ m1 = m := by
            rw [castArg] at h1
            rcases htr : t.ref with _ | _ | _
            · exact absurd htr hr
            all_goals
              simp only [htr, Option.ite_none_right_eq_some, Option.some.injEq, Prod.mk.injEq] at h1
              exact ⟨h1.2.1.symm, h1.2.2.symm⟩
          obtain ⟨a, b⟩ := ih es m1 es2 m2 (fun t h => ht t (by simp [h])) h2
          refine ⟨by rw [← h.2, a, h1'.2], ?_⟩
          rw [← h.1, b, h1'.1]; rfl

/-- With explicit reference types, `compressed_tuple<X &, Y &&, ...>{ x, y, ... }`, lvalue references are bound, and objects given as `Y &&` are moved from
(copied, if const), if the type is not empty; no other copies are made. -/
theorem C64_reference_types (Λ : Lang B V) (ts : List (Ty B)) (es : List (Expr B)) (m : Mem V L) (els : List (Elem B)) (m' : Mem V L)
    (ht : ∀ t ∈ ts, t.ref ≠ .none) (h : construct Λ ts es m = some (els, m')) :
    Made m m' (((ts.zip es).filter fun p => decide (p.1.ref = .rref) && !Λ.isEmpty p.1.base).map fun p => (!p.1.c, p.2.addr)) := by
  simp only [construct, Option.map_eq_some_iff] at h
  obtain ⟨⟨es', m1⟩, h1, h2⟩ := h
  obtain ⟨rfl, rfl⟩ := castArgs_refs Λ ts es m es' m1 ht h1
  rw [makeBase_eq] at h2
  have hm := made_mkElems Λ (List.zipWith (fun t e => Expr.ofRef t e.addr) ts es) m1
  rw [h2] at hm
  have : ((rvalues ((List.zipWith (fun t (e : Expr B) => Expr.ofRef t e.addr) ts es).filter fun e => !Λ.isEmpty e.base)).map Expr.made) =
      (((ts.zip es).filter fun p => decide (p.1.ref = .rref) && !Λ.isEmpty p.1.base).map fun p => (!p.1.c, p.2.addr)) := by
    clear h1 h2 hm
    induction ts generalizing es with
    | nil => rfl
    | cons t ts ih =>
      rcases es with _ | ⟨e, es⟩
      · rfl
      · have ih := ih es (fun t h => ht t (by simp [h]))
        have hr := ht t (by simp)
        rcases hE : Λ.isEmpty t.base with _ | _
        · rcases htr : t.ref with _ | _ | _
          · exact absurd htr hr
          · have hc : (Expr.ofRef t e.addr).cat = .lv := by simp [Expr.ofRef, htr]
            have hb : (Expr.ofRef t e.addr).base = t.base := rfl
            simp only [List.zipWith_cons_cons, List.zip_cons_cons, List.filter_cons, hb, hE, Bool.not_false, if_true, htr, reduceCtorEq, decide_false,
              Bool.false_and, Bool.false_eq_true, if_false]
            rw [rvalues_cons, List.map_append, ih]
            simp [rvalues, hc]
          · have hc : (Expr.ofRef t e.addr).cat = .xv := by simp [Expr.ofRef, htr]
            have hb : (Expr.ofRef t e.addr).base = t.base := rfl
            simp only [List.zipWith_cons_cons, List.zip_cons_cons, List.filter_cons, hb, hE, Bool.not_false, if_true, htr, decide_true,
              Bool.and_self, List.map_cons]
            rw [rvalues_cons, List.map_append, ih]
            simp [rvalues, hc, Expr.made]
            simp [Expr.ofRef]
        · have hb : (Expr.ofRef t e.addr).base = t.base := rfl
          simpa [List.filter_cons, hb, hE] using ih
  rw [this] at hm
  exact hm

/-- An lvalue, a temporary and a temporary of empty type in `compressed_tuple{ x, std::move(y), E{} } >> std::move(f)`: three copies, and moves of `f` and
of six objects made on the way. -/
example : ∃ b m' l, makeBound exLang (fun _ => false) "tuple" .front
      [⟨"int", false, false, .lv, 0⟩, ⟨"int", false, false, .xv, 1⟩, ⟨"E", false, false, .xv, 2⟩] ⟨"f", false, false, .xv, 3⟩ (memOf [5, 6, 0, 8]) = some (b, m') ∧
    Made (memOf [5, 6, 0, 8]) m' l ∧ copied l = [0, 1, 2] ∧ (movedFrom l).length = 6 := by
  obtain ⟨b, m', h, -⟩ := makeBound_spec exLang (fun _ => false) "tuple" .front
      [⟨"int", false, false, .lv, 0⟩, ⟨"int", false, false, .xv, 1⟩, ⟨"E", false, false, .xv, 2⟩] ⟨"f", false, false, .xv, 3⟩ (memOf [5, 6, 0, 8])
      (by simp [memOf]) (by simp [memOf]) (by simp [memOf, exLang]) (by simp [exLang]) (by simp) (by decide)
  obtain ⟨l, h1, h2, h3, -⟩ := C64_one_copy_partial exLang (fun _ => false) "tuple" .front
      [⟨"int", false, false, .lv, 0⟩, ⟨"int", false, false, .xv, 1⟩, ⟨"E", false, false, .xv, 2⟩] ⟨"f", false, false, .xv, 3⟩ (memOf [5, 6, 0, 8]) b m'
      (by simp) (by decide) h
  exact ⟨b, m', l, h, h1, h2, h3⟩

/-- `compressed_tuple<int &, int &&>{ x, y }` -/
example : ∃ els m', construct exLang [⟨"int", false, false, .lref⟩, ⟨"int", false, false, .rref⟩] [⟨"int", false, false, .lv, 0⟩, ⟨"int", false, false, .lv, 1⟩]
    (memOf [5, 6]) = some (els, m') ∧ Made (memOf [5, 6]) m' [(true, 1)] :=
  ⟨_, _, rfl, C64_reference_types exLang [⟨"int", false, false, .lref⟩, ⟨"int", false, false, .rref⟩] [⟨"int", false, false, .lv, 0⟩, ⟨"int", false, false, .lv, 1⟩]
    (memOf [5, 6]) _ _ (by simp) rfl⟩

end Pigro.Cxx
