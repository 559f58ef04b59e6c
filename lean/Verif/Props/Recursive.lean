import Verif.Model.Recursive
/-!
# C36, C37: recursive
-/
namespace Pigro.Cxx
variable {B : Type}

/-! ### C36 -/

/-- Same object, type, constness and category. -/
def SameAs (r e : Expr B) : Prop :=
  r.addr = e.addr ∧ r.base = e.base ∧ r.c = e.c ∧ r.v = e.v ∧ r.cat = e.cat

theorem recOp_lv (viable : RecOp → Bool) (e : Expr B) (h1 : viable .rref = false)
    (h2 : viable .constRref = false) :
    Ovl.resolve viable (RecOp.better e) [.lref, .rref, .constLref, .constRref] =
      if viable .lref then .pick .lref else if viable .constLref then .pick .constLref else .noMatch := by
  cases h3 : viable .lref <;> cases h4 : viable .constLref <;>
    simp [Ovl.resolve, Ovl.isBest, RecOp.better, List.filter, h1, h2, h3, h4]

theorem recOp_xv (viable : RecOp → Bool) (e : Expr B) (he : e.cat = .xv) (h1 : viable .lref = false) :
    Ovl.resolve viable (RecOp.better e) [.lref, .rref, .constLref, .constRref] =
      if viable .rref then .pick .rref else if viable .constRref then .pick .constRref
      else if viable .constLref then .pick .constLref else .noMatch := by
  cases h2 : viable .rref <;> cases h3 : viable .constLref <;> cases h4 : viable .constRref <;>
    simp [Ovl.resolve, Ovl.isBest, RecOp.better, List.filter, he, h1, h2, h3, h4]

/-- The expressions by which the called object may be passed on, best first: as it is; as const; as a const
lvalue. -/
def passes (e : Expr B) : List (Expr B) :=
  [e, { e with c := true }, { e with c := true, cat := .lv }]

/-- **C36**, exactly: the object is passed by the first of these expressions the function accepts (the function itself being
invoked through the same kind of expression); if it accepts none, the call is ill-formed; a volatile object cannot be
called. -/
theorem C36_selection (acc : Expr B → Expr B → Bool) (e : Expr B) :
    recursiveCall acc e =
      if e.v then none else ((passes e).find? fun p => acc p p).map fun p => (p, p) := by
  rcases e with ⟨b, c, v, cat, addr⟩
  cases v
  · cases cat
    · rw [recursiveCall, recOp_lv _ _ (by rfl) (by rfl)]
      cases c
      · cases h1 : acc ⟨b, false, false, .lv, addr⟩ ⟨b, false, false, .lv, addr⟩ <;>
        cases h2 : acc ⟨b, true, false, .lv, addr⟩ ⟨b, true, false, .lv, addr⟩ <;>
        simp [RecOp.viable, RecOp.binds, RecOp.callee, RecOp.self, RecOp.this, passes, h1, h2]
      · cases h2 : acc ⟨b, true, false, .lv, addr⟩ ⟨b, true, false, .lv, addr⟩ <;>
        simp [RecOp.viable, RecOp.binds, RecOp.callee, RecOp.self, RecOp.this, passes, h2]
    · rw [recursiveCall, recOp_xv _ _ rfl (by rfl)]
      cases c
      · cases h1 : acc ⟨b, false, false, .xv, addr⟩ ⟨b, false, false, .xv, addr⟩ <;>
        cases h2 : acc ⟨b, true, false, .xv, addr⟩ ⟨b, true, false, .xv, addr⟩ <;>
        cases h3 : acc ⟨b, true, false, .lv, addr⟩ ⟨b, true, false, .lv, addr⟩ <;>
        simp [RecOp.viable, RecOp.binds, RecOp.callee, RecOp.self, RecOp.this, Expr.move, passes, h1, h2, h3]
      · cases h2 : acc ⟨b, true, false, .xv, addr⟩ ⟨b, true, false, .xv, addr⟩ <;>
        cases h3 : acc ⟨b, true, false, .lv, addr⟩ ⟨b, true, false, .lv, addr⟩ <;>
        simp [RecOp.viable, RecOp.binds, RecOp.callee, RecOp.self, RecOp.this, Expr.move, passes, h2, h3]
  · have : ∀ op, RecOp.viable acc (⟨b, c, true, cat, addr⟩ : Expr B) op = false := by
      intro op; cases op <;> simp [RecOp.viable, RecOp.binds]
    simp [recursiveCall, Ovl.resolve, List.filter, this]

/-- **C36** (partial: the function must accept a self of that qualification). A call passes the object itself with the value
category and constness of the call expression, and invokes the stored function with the same qualification. -/
theorem C36_self_as_called_partial (acc : Expr B → Expr B → Bool) (e : Expr B) (hv : e.v = false)
    (hacc : acc e e = true) :
    ∃ callee self, recursiveCall acc e = some (callee, self) ∧ SameAs callee e ∧ SameAs self e :=
  ⟨e, e, by simp [C36_selection, hv, passes, hacc], ⟨rfl, rfl, rfl, rfl, rfl⟩, ⟨rfl, rfl, rfl, rfl, rfl⟩⟩

/-- **C36 is false** without that: a non-const object is passed as const whenever the function accepts that but not the
object as it is; e.g. a function taking `auto &self`, or one declared `const` only for rvalues. -/
theorem C36_const_fallback (acc : Expr B → Expr B → Bool) (e : Expr B) (hv : e.v = false) (hc : e.c = false)
    (h1 : acc e e = false) (h2 : acc { e with c := true } { e with c := true } = true) :
    ∃ callee self, recursiveCall acc e = some (callee, self) ∧ self.c = true ∧ ¬ SameAs self e := by
  have : (passes e).find? (fun p => acc p p) = some { e with c := true } := by
    simp only [passes, List.find?, h1, h2]
  refine ⟨{ e with c := true }, { e with c := true }, ?_, rfl, ?_⟩
  · rw [C36_selection, this, hv]; rfl
  rintro ⟨-, -, h, -⟩
  simp [hc] at h

/-- `recursive{ [](auto &self, ...) }` called on a temporary, as by `lazy.h:38` through `std::bind_front`: `auto &` binds
to a const rvalue (as `const T`) but not to a non-const one. -/
def acceptsLref (_callee self : Expr B) : Bool := decide (self.cat = .lv) || self.c

example : recursiveCall acceptsLref (⟨"R", false, false, .xv, 1⟩ : Expr String) =
    some (⟨"R", true, false, .xv, 1⟩, ⟨"R", true, false, .xv, 1⟩) := by
  rw [C36_selection]; rfl

example : ∃ callee self, recursiveCall acceptsLref (⟨"R", false, false, .lv, 1⟩ : Expr String) =
    some (callee, self) ∧ SameAs callee ⟨"R", false, false, .lv, 1⟩ ∧ SameAs self ⟨"R", false, false, .lv, 1⟩ :=
  C36_self_as_called_partial _ _ rfl rfl

end Pigro.Cxx

namespace Pigro.Rec
variable {A R S X : Type}

/-! ### C37 -/

/-- Big-step meaning of a body, given the meaning `C` of calling the object: relational, without depth. -/
inductive Runs (byValue : Bool) (C : S → A → Except X R → S → Prop) :
    Prog A R S X → S → S → Except X R → S → Prop where
  | ret (r own copy) : Runs byValue C (.ret r) own copy (.ok r) own
  | throw (x own copy) : Runs byValue C (.throw x) own copy (.error x) own
  | get {k own copy o s} : Runs byValue C (k own) own copy o s → Runs byValue C (.get k) own copy o s
  | put {s' k own copy o s} : Runs byValue C k s' copy o s → Runs byValue C (.put s' k) own copy o s
  | selfRef {a k own copy r s o t} : byValue = false → C own a (.ok r) s →
      Runs byValue C (k r) s copy o t → Runs byValue C (.self a k) own copy o t
  | selfRefThrow {a k own copy x s} : byValue = false → C own a (.error x) s →
      Runs byValue C (.self a k) own copy (.error x) s
  | selfCopy {a k own copy r s o t} : byValue = true → C copy a (.ok r) s →
      Runs byValue C (k r) own s o t → Runs byValue C (.self a k) own copy o t
  | selfCopyThrow {a k own copy x s} : byValue = true → C copy a (.error x) s →
      Runs byValue C (.self a k) own copy (.error x) own

/-- "Calling the object" means the least relation closed under: running the body, in which a self call means calling the object.
(Least fixed point, as the intersection of all closed relations.) -/
def Calls (f : Fn A R S X) (s : S) (a : A) (o : Except X R) (t : S) : Prop :=
  ∀ C : S → A → Except X R → S → Prop,
    (∀ s a o t, Runs f.byValue C (f.body a) s s o t → C s a o t) → C s a o t

theorem Runs.mono {byValue : Bool} {C C' : S → A → Except X R → S → Prop}
    (h : ∀ s a o t, C s a o t → C' s a o t) {p : Prog A R S X} {own copy : S} {o : Except X R} {t : S}
    (hr : Runs byValue C p own copy o t) : Runs byValue C' p own copy o t := by
  induction hr with
  | ret => exact .ret ..
  | throw => exact .throw ..
  | get _ ih => exact .get ih
  | put _ ih => exact .put ih
  | selfRef hb hc _ ih => exact .selfRef hb (h _ _ _ _ hc) ih
  | selfRefThrow hb hc => exact .selfRefThrow hb (h _ _ _ _ hc)
  | selfCopy hb hc _ ih => exact .selfCopy hb (h _ _ _ _ hc) ih
  | selfCopyThrow hb hc => exact .selfCopyThrow hb (h _ _ _ _ hc)

theorem run_sound {byValue : Bool} {call : S → A → Option (Except X R × S)}
    (p : Prog A R S X) : ∀ (own copy : S) (o : Except X R) (t : S), p.run byValue call own copy = some (o, t) →
    Runs byValue (fun s a o t => call s a = some (o, t)) p own copy o t := by
  induction p with
  | ret r => intro own copy o t h; simp only [Prog.run, Option.some.injEq, Prod.mk.injEq] at h
             obtain ⟨rfl, rfl⟩ := h; exact .ret ..
  | throw x => intro own copy o t h; simp only [Prog.run, Option.some.injEq, Prod.mk.injEq] at h
               obtain ⟨rfl, rfl⟩ := h; exact .throw ..
  | get k ih => intro own copy o t h; exact .get (ih _ _ _ _ _ h)
  | put s k ih => intro own copy o t h; exact .put (ih _ _ _ _ h)
  | self a k ih =>
    intro own copy o t h
    simp only [Prog.run] at h
    cases hb : byValue
    · subst hb
      simp only [Bool.false_eq_true, if_false] at h
      split at h
      · simp at h
      · rename_i x s hc
        simp only [Option.some.injEq, Prod.mk.injEq] at h
        obtain ⟨rfl, rfl⟩ := h
        exact .selfRefThrow rfl hc
      · rename_i r s hc
        exact .selfRef rfl hc (ih _ _ _ _ _ h)
    · subst hb
      simp only [if_true] at h
      split at h
      · simp at h
      · rename_i x s hc
        simp only [Option.some.injEq, Prod.mk.injEq] at h
        obtain ⟨rfl, rfl⟩ := h
        exact .selfCopyThrow rfl hc
      · rename_i r s hc
        exact .selfCopy rfl hc (ih _ _ _ _ _ h)

theorem run_mono {byValue : Bool} {call call' : S → A → Option (Except X R × S)}
    (hm : ∀ s a x, call s a = some x → call' s a = some x) (p : Prog A R S X) :
    ∀ (own copy : S) (x : Except X R × S), p.run byValue call own copy = some x →
      p.run byValue call' own copy = some x := by
  induction p with
  | ret r => intro own copy x h; exact h
  | throw y => intro own copy x h; exact h
  | get k ih => intro own copy x h; exact ih _ _ _ _ h
  | put s k ih => intro own copy x h; exact ih _ _ _ h
  | self a k ih =>
    intro own copy x h
    simp only [Prog.run] at h ⊢
    rcases hc : call (if byValue = true then copy else own) a with _ | ⟨y | r, s⟩
    · simp [hc] at h
    · rw [hc] at h; rw [hm _ _ _ hc]; exact h
    · rw [hc] at h; rw [hm _ _ _ hc]
      simp only at h ⊢
      cases byValue
      · exact ih _ _ _ _ h
      · exact ih _ _ _ _ h

theorem call_mono (f : Fn A R S X) : ∀ (n : Nat) (s : S) (a : A) (x : Except X R × S),
    call f n s a = some x → ∀ m, n ≤ m → call f m s a = some x := by
  intro n
  induction n with
  | zero => intro s a x h; simp [call] at h
  | succ n ih =>
    intro s a x h m hm
    obtain ⟨m, rfl⟩ : ∃ k, m = k + 1 := ⟨m - 1, by omega⟩
    simp only [call] at h ⊢
    exact run_mono (fun s a x hx => ih s a x hx m (by omega)) _ _ _ _ h

theorem run_complete {f : Fn A R S X} {p : Prog A R S X} {own copy : S} {o : Except X R} {t : S}
    (h : Runs f.byValue (fun s a o t => ∃ n, call f n s a = some (o, t)) p own copy o t) :
    ∃ n, p.run f.byValue (call f n) own copy = some (o, t) := by
  induction h with
  | ret => exact ⟨0, rfl⟩
  | throw => exact ⟨0, rfl⟩
  | get _ ih => obtain ⟨n, hn⟩ := ih; exact ⟨n, hn⟩
  | put _ ih => obtain ⟨n, hn⟩ := ih; exact ⟨n, hn⟩
  | selfRef hb hc _ ih =>
    obtain ⟨n, hn⟩ := hc
    obtain ⟨m, hm⟩ := ih
    refine ⟨max n m, ?_⟩
    have h1 := call_mono f n _ _ _ hn (max n m) (Nat.le_max_left ..)
    have h2 := run_mono (fun s a x hx => call_mono f m s a x hx (max n m) (Nat.le_max_right ..)) _ _ _ _ hm
    simp only [hb] at h2
    simp only [Prog.run, hb, h1, Bool.false_eq_true, if_false]
    exact h2
  | selfRefThrow hb hc =>
    obtain ⟨n, hn⟩ := hc
    exact ⟨n, by simp only [Prog.run, hb, hn, Bool.false_eq_true, if_false]⟩
  | selfCopy hb hc _ ih =>
    obtain ⟨n, hn⟩ := hc
    obtain ⟨m, hm⟩ := ih
    refine ⟨max n m, ?_⟩
    have h1 := call_mono f n _ _ _ hn (max n m) (Nat.le_max_left ..)
    have h2 := run_mono (fun s a x hx => call_mono f m s a x hx (max n m) (Nat.le_max_right ..)) _ _ _ _ hm
    simp only [hb] at h2
    simp only [Prog.run, hb, h1, if_true]
    exact h2
  | selfCopyThrow hb hc =>
    obtain ⟨n, hn⟩ := hc
    exact ⟨n, by simp only [Prog.run, hb, hn, if_true]⟩

/-- **C37.** `recursive{f}(a)` returns (or throws) with some finite stack exactly if the specification has that outcome: the
outcomes of calling the object are those of the body of `f` in which self calls are calls of the object. -/
theorem C37_fixed_point (f : Fn A R S X) (s : S) (a : A) (o : Except X R) (t : S) :
    (∃ depth, call f depth s a = some (o, t)) ↔ Calls f s a o t := by
  constructor
  · rintro ⟨n, hn⟩ C hC
    induction n generalizing s a o t with
    | zero => simp [call] at hn
    | succ n ih =>
      refine hC _ _ _ _ ?_
      exact (run_sound _ _ _ _ _ hn).mono fun s a o t h => ih s a o t h
  · intro h
    refine h (fun s a o t => ∃ depth, call f depth s a = some (o, t)) ?_
    intro s a o t hr
    obtain ⟨n, hn⟩ := run_complete hr
    exact ⟨n + 1, hn⟩

/-- **C37**: the outcome is unique and does not depend on the stack available (if sufficient). -/
theorem C37_deterministic (f : Fn A R S X) (s : S) (a : A) (n m : Nat) (x y : Except X R × S)
    (hx : call f n s a = some x) (hy : call f m s a = some y) : x = y := by
  have h1 := call_mono f n s a x hx (max n m) (Nat.le_max_left ..)
  have h2 := call_mono f m s a y hy (max n m) (Nat.le_max_right ..)
  rw [h1] at h2
  exact Option.some.inj h2

/-- All self calls a body can make, whatever they return and whatever the captured state, satisfy `P`. -/
def SelfCalls (P : A → Prop) : Prog A R S X → Prop
  | .ret _ => True
  | .throw _ => True
  | .self a k => P a ∧ ∀ r, SelfCalls P (k r)
  | .get k => ∀ s, SelfCalls P (k s)
  | .put _ k => SelfCalls P k

theorem run_terminates (f : Fn A R S X) (P : A → Prop)
    (hP : ∀ a, P a → ∀ s, ∃ n x, call f n s a = some x) (p : Prog A R S X) :
    SelfCalls P p → ∀ own copy, ∃ n x, p.run f.byValue (call f n) own copy = some x := by
  induction p with
  | ret r => intro _ own copy; exact ⟨0, _, rfl⟩
  | throw x => intro _ own copy; exact ⟨0, _, rfl⟩
  | get k ih => intro h own copy; exact ih own (h own) own copy
  | put s k ih => intro h own copy; exact ih h s copy
  | self a k ih =>
    intro h own copy
    obtain ⟨n, ⟨o, s⟩, hn⟩ := hP a h.1 (if f.byValue then copy else own)
    rcases o with x | r
    · refine ⟨n, (.error x, if f.byValue then own else s), ?_⟩
      simp only [Prog.run, hn]
    · obtain ⟨m, y, hm⟩ := ih r (h.2 r) (if f.byValue then own else s) (if f.byValue then s else copy)
      refine ⟨max n m, y, ?_⟩
      have h1 := call_mono f n _ _ _ hn (max n m) (Nat.le_max_left ..)
      have h2 := run_mono (fun s a x hx => call_mono f m s a x hx (max n m) (Nat.le_max_right ..)) _ _ _ _ hm
      simp only [Prog.run, h1]
      cases hb : f.byValue
      · simpa [hb] using h2
      · simpa [hb] using h2

/-- **C37.** If self calls only ever go to smaller arguments in a well-founded order, every call terminates. -/
theorem C37_terminates (f : Fn A R S X) (lt : A → A → Prop) (wf : WellFounded lt)
    (h : ∀ a, SelfCalls (fun b => lt b a) (f.body a)) (s : S) (a : A) :
    ∃ depth x, call f depth s a = some x := by
  induction a using wf.induction generalizing s with
  | _ a ih =>
    obtain ⟨n, x, hx⟩ := run_terminates f _ (fun b hb s => ih b hb s) _ (h a) s s
    exact ⟨n + 1, x, hx⟩

/-- Evaluate a body with a mathematical function for the self calls and no use of captured state. -/
def evalWith (g : A → R) : Prog A R S X → Option R
  | .ret r => some r
  | .throw _ => none
  | .self a k => evalWith g (k (g a))
  | .get _ => none
  | .put _ _ => none

theorem run_pure (f : Fn A R S X) (g : A → R) (n : Nat) (p : Prog A R S X)
    (hg : ∀ (a : A) (s : S) (x : Except X R × S), call f n s a = some x → x = (.ok (g a), s)) :
    ∀ (own copy : S) (r : R) (x : Except X R × S), evalWith g p = some r → p.run f.byValue (call f n) own copy = some x →
      x = (.ok r, own) := by
  induction p with
  | ret r' => intro own copy r x h1 h2
              simp only [evalWith, Option.some.injEq] at h1
              simp only [Prog.run, Option.some.injEq] at h2
              rw [← h2, h1]
  | throw y => intro own copy r x h1; simp [evalWith] at h1
  | get k ih => intro own copy r x h1; simp [evalWith] at h1
  | put s k ih => intro own copy r x h1; simp [evalWith] at h1
  | self a k ih =>
    intro own copy r x h1 h2
    simp only [Prog.run] at h2
    rcases hc : call f n (if f.byValue = true then copy else own) a with _ | y
    · simp [hc] at h2
    · have hy := hg _ _ _ hc
      rw [hc, hy] at h2
      simp only at h2
      cases hb : f.byValue <;> simp only [hb, Bool.false_eq_true, if_false, if_true] at h2 <;>
        exact ih (g a) _ _ r x h1 (by simpa [hb] using h2)

/-- **C37.** For a body without captured state: if a mathematical function `g` satisfies the recursion equation of the body, and the
recursion is well-founded, `recursive{f}(a)` returns `g a`, for every `a`. -/
theorem C37_computes (f : Fn A R S X) (g : A → R) (lt : A → A → Prop) (wf : WellFounded lt)
    (h : ∀ a, SelfCalls (fun b => lt b a) (f.body a)) (heq : ∀ a, evalWith g (f.body a) = some (g a))
    (s : S) (a : A) : ∃ depth, call f depth s a = some (.ok (g a), s) := by
  have key : ∀ (n : Nat) (a : A) (s : S) (x : Except X R × S), call f n s a = some x → x = (.ok (g a), s) := by
    intro n
    induction n with
    | zero => intro a s x hx; simp [call] at hx
    | succ n ih =>
      intro a s x hx
      exact run_pure f g n _ ih _ _ _ _ (heq a) hx
  obtain ⟨n, x, hx⟩ := C37_terminates f lt wf h s a
  exact ⟨n, by rw [hx, key n a s x hx]⟩

/-- `[](auto &&self, int n) { return n < 2 ? n : self(n - 1) + self(n - 2); }` -/
def fibFn (byValue : Bool) : Fn Nat Nat Unit Empty where
  byValue := byValue
  body n := match n with
    | 0 => .ret 0
    | 1 => .ret 1
    | n + 2 => .self (n + 1) fun x => .self n fun y => .ret (x + y)

/-- Fibonacci numbers. -/
def fib : Nat → Nat
  | 0 => 0
  | 1 => 1
  | n + 2 => fib (n + 1) + fib n

example (byValue : Bool) (n : Nat) : ∃ depth, call (fibFn byValue) depth () n = some (.ok (fib n), ()) := by
  refine C37_computes (fibFn byValue) fib (· < ·) Nat.lt_wfRel.wf ?_ ?_ () n
  · intro n
    rcases n with _ | _ | n
    · trivial
    · trivial
    · exact ⟨by omega, fun _ => ⟨by omega, fun _ => trivial⟩⟩
  · intro n
    rcases n with _ | _ | n <;> rfl

/-- A function counting its invocations in captured state: with `auto &self` all levels count in the same object, with
`auto self` the caller's object sees its own invocation only. -/
def countFn (byValue : Bool) : Fn Nat Nat Nat Empty where
  byValue := byValue
  body n := .get fun c => .put (c + 1) (match n with
    | 0 => .ret 0
    | n + 1 => .self n fun x => .ret (x + 1))

example : call (countFn false) 9 0 4 = some (.ok 4, 5) ∧ call (countFn true) 9 0 4 = some (.ok 4, 1) := by
  constructor <;> rfl

end Pigro.Rec
