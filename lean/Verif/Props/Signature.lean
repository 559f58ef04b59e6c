import Verif.Proofs.Signature
/-!
# C58: which calls the binders accept
-/
namespace Pigro.Cxx
variable {B V L : Type} [DecidableEq B]

/-- **C58** for `>>`, exactly, called as non-const with any arguments: whether the callable accepts the arguments as they are decides about overload resolution and
the type; whether the call then compiles is decided by whether the callable accepts them as lvalues. -/
theorem C58_front_exact (Λ : Lang B V) (f t : Expr B) (els : List (Elem B)) (m m' : Mem V L) (b : Bound B)
    (h : bindTuple Λ .front f t els m = some (b, m')) (hv : NoVolatile f t els) (hfe : Λ.isEmpty f.base = true → f.c = false)
    (hte : Λ.isEmpty t.base = true → ∀ el ∈ els, ∃ y, el = .empty y) (conv : Ty B → Ty B → Bool) (hconv : ∀ r, conv r r = true) (fallback : Bool)
    (sig : Sig B) (args : List (Ty B)) :
    b.static conv fallback sig f t false args =
      match sig ⟨f.base, f.c, false, .lref⟩ (els.map (Elem.passTy t.c) ++ args) with
      | none => .notViable
      | some r =>
        match sig ⟨f.base, f.c, false, .lref⟩ (els.map (Elem.passTy t.c) ++ args.map fun a => { a with ref := .lref }) with
        | none => .hardError
        | some r' => if conv r' r then .ok r else .hardError := by
  obtain ⟨hd, h1, hk, hf, ht, -, -⟩ := bindTuple_facts Λ .front f t els m m' b h
  obtain ⟨hok, hall⟩ := bound_ok Λ .front f t els m m' b h hv false
  rw [static_eq conv fallback sig b f t false args hok (hall _), hd]
  have hft : f.named.type = ⟨f.base, f.c, false, .lref⟩ := by simp [Expr.named, Expr.type, hv.1]
  have hfc : b.f.calleeTy false = ⟨f.base, f.c, false, .lref⟩ := by
    rw [hf]
    split
    · rename_i h; simp [hfe h]
    · simp [hv.1]
  have htt : b.els.map (Elem.passTy (b.tupleConst false)) = els.map (Elem.passTy t.c) := by
    rw [hk, ht]
    cases hte' : Λ.isEmpty t.base
    · simp
    · apply List.map_congr_left
      intro el hel
      obtain ⟨y, rfl⟩ := hte hte' el hel
      rfl
  simp only [hft, h1, hfc, htt, bindBackStatic]
  have hl : (fun a : Ty B => { a with ref := .lref }) = Ty.asLref := rfl
  have hfl : (⟨f.base, f.c, false, .lref⟩ : Ty B).asLref = ⟨f.base, f.c, false, .lref⟩ := rfl
  rw [hl, hfl]
  cases hs : sig ⟨f.base, f.c, false, .lref⟩ (els.map (Elem.passTy t.c) ++ args) with
  | none => rfl
  | some r =>
    cases hs' : sig ⟨f.base, f.c, false, .lref⟩ (els.map (Elem.passTy t.c) ++ args.map Ty.asLref) with
    | none => rfl
    | some r' =>
      simp only [returnAs]
      cases hc : conv r' r
      · rfl
      · simp [hconv]

/-- **C58** for `>>` (partial: called as non-const, with lvalue arguments; no const callable of empty type). For every callable, whatever it accepts, and
every tuple: a call takes part in overload resolution exactly if the callable accepts the bound values followed by the arguments; then it compiles, and its type
is that of the callable's result. -/
theorem C58_front_partial (Λ : Lang B V) (f t : Expr B) (els : List (Elem B)) (m m' : Mem V L) (b : Bound B)
    (h : bindTuple Λ .front f t els m = some (b, m')) (hv : NoVolatile f t els) (hfe : Λ.isEmpty f.base = true → f.c = false)
    (hte : Λ.isEmpty t.base = true → ∀ el ∈ els, ∃ y, el = .empty y) (conv : Ty B → Ty B → Bool) (hconv : ∀ r, conv r r = true) (fallback : Bool)
    (sig : Sig B) (args : List (Ty B)) (hargs : ∀ a ∈ args, a.ref = .lref) :
    Friendly (sig ⟨f.base, f.c, false, .lref⟩ (els.map (Elem.passTy t.c) ++ args)) (b.static conv fallback sig f t false args) := by
  rw [C58_front_exact Λ f t els m m' b h hv hfe hte conv hconv fallback sig args]
  have hl : (args.map fun a : Ty B => { a with ref := .lref }) = args := asLref_of_lref args hargs
  rw [hl]
  cases hs : sig ⟨f.base, f.c, false, .lref⟩ (els.map (Elem.passTy t.c) ++ args) with
  | none => rfl
  | some r => simp [Friendly, hconv]

/-- **C58** for `<<` (partial: called as non-const). The callable gets copies of itself and of the arguments, as rvalues, and what it accepts of these
decides; for any arguments. With a standard library that tries const overloads next, this is so for whatever is accepted at once. -/
theorem C58_back_partial (Λ : Lang B V) (f t : Expr B) (els : List (Elem B)) (m m' : Mem V L) (b : Bound B)
    (h : bindTuple Λ .back f t els m = some (b, m')) (hv : NoVolatile f t els)
    (hte : Λ.isEmpty t.base = true → ∀ el ∈ els, ∃ y, el = .empty y) (conv : Ty B → Ty B → Bool) (hconv : ∀ r, conv r r = true)
    (sig : Sig B) (args : List (Ty B)) :
    let o := sig ⟨f.base, false, false, .rref⟩ ((args.map fun a => ⟨a.base, false, false, .rref⟩) ++ els.map (Elem.passTy t.c))
    Friendly o (b.static conv false sig f t false args) ∧ (o ≠ none → Friendly o (b.static conv true sig f t false args)) ∧
    b.static conv true sig f t false args ≠ .hardError := by
  intro o
  obtain ⟨hd, h1, hk, hf, ht, -, -⟩ := bindTuple_facts Λ .back f t els m m' b h
  obtain ⟨hok, hall⟩ := bound_ok Λ .back f t els m m' b h hv false
  have htt : b.els.map (Elem.passTy (b.tupleConst false)) = els.map (Elem.passTy t.c) := by
    rw [hk, ht]
    cases hte' : Λ.isEmpty t.base
    · simp
    · apply List.map_congr_left
      intro el hel
      obtain ⟨y, rfl⟩ := hte hte' el hel
      rfl
  have hdec : (b.f.calleeTy false).decayRref = ⟨f.base, false, false, .rref⟩ := by
    rw [hf]; split <;> rfl
  have hdec' : f.named.type.decayRref = ⟨f.base, false, false, .rref⟩ := rfl
  have hs : ∀ fb, stdBindFrontStatic fb sig (b.f.calleeTy false) args (els.map (Elem.passTy t.c)) =
      stdBindFrontStatic fb sig f.named.type args (els.map (Elem.passTy t.c)) := by
    intro fb
    simp only [stdBindFrontStatic, hdec, hdec']
  have ho : ∀ fb r, o = some r → stdBindFrontStatic fb sig f.named.type args (els.map (Elem.passTy t.c)) = some r := by
    intro fb r hr
    simp only [stdBindFrontStatic, hdec']
    have : sig ⟨f.base, false, false, .rref⟩ (args.map Ty.decayRref ++ els.map (Elem.passTy t.c)) = some r := hr
    rw [this]
  have hn : o = none → stdBindFrontStatic false sig f.named.type args (els.map (Elem.passTy t.c)) = none := by
    intro hr
    simp only [stdBindFrontStatic, hdec']
    have : sig ⟨f.base, false, false, .rref⟩ (args.map Ty.decayRref ++ els.map (Elem.passTy t.c)) = none := hr
    rw [this]
    rfl
  have e : ∀ fb, b.static conv fb sig f t false args = match stdBindFrontStatic fb sig f.named.type args (els.map (Elem.passTy t.c)) with
      | none => .notViable
      | some r => .ok r := by
    intro fb
    rw [static_eq conv fb sig b f t false args hok (hall _), hd]
    simp only [h1, htt, hs]
    cases stdBindFrontStatic fb sig f.named.type args (els.map (Elem.passTy t.c)) with
    | none => rfl
    | some r => simp [returnAs, hconv]
  refine ⟨?_, ?_, ?_⟩
  · rw [e]
    cases hr : o with
    | none => rw [hn hr]; rfl
    | some r => rw [ho _ r hr]; rfl
  · intro hne
    rw [e]
    cases hr : o with
    | none => exact absurd hr hne
    | some r => rw [ho _ r hr]; rfl
  · rw [e]
    split <;> simp

omit [DecidableEq B] in
theorem pairs_types {P : Expr B → Expr B → Prop} {g : Ty B → Ty B} {as bs : List (Expr B)} (h : Pairs P as bs)
    (hg : ∀ a b, P a b → b.type = g a.type) : bs.map Expr.type = (as.map Expr.type).map g := by
  apply List.ext_getElem?
  intro i
  by_cases hi : i < as.length
  · obtain ⟨e, h1, h2⟩ := h.2 i as[i] (by simp [hi])
    simp [h1, hi, hg _ _ h2]
  · have h1 : bs.length ≤ i := by have := h.1; omega
    simp [List.getElem?_eq_none h1, List.getElem?_eq_none (Nat.le_of_not_lt hi)]

omit [DecidableEq B] in
theorem passed_types {Λ : Lang B V} {m m' : Mem V L} {c : Bool} {els : List (Elem B)} {ts : List (Expr B)}
    (h : Pairs (PassedElem Λ m m' c) els ts) : ts.map Expr.type = els.map (Elem.passTy c) := by
  apply List.ext_getElem?
  intro i
  by_cases hi : i < els.length
  · obtain ⟨e, h1, h2⟩ := h.2 i els[i] (by simp [hi])
    simp only [List.getElem?_map, h1, List.getElem?_eq_getElem hi, Option.map_some, Option.some.injEq]
    generalize els[i] = el at h2
    rcases el with x | ⟨ty, a⟩
    · obtain ⟨k1, k2, k3, k4, -⟩ := h2
      rcases e with ⟨b, c', v, cat, a⟩
      simp only at k1 k2 k3 k4
      subst k1 k2 k3 k4
      rfl
    · simp only [PassedElem] at h2
      subst h2
      rfl
  · have h1 : ts.length ≤ i := by have := h.1; omega
    simp [List.getElem?_eq_none h1, List.getElem?_eq_none (Nat.le_of_not_lt hi)]

/-- **C58**, soundness: whenever a call of `t >> f` is accepted (as const or not, any arguments), running it calls `f` with expressions it accepts. -/
theorem C58_front_sound (Λ : Lang B V) (idxOf : B → Option Nat) (b : Bound B) (hd : b.dir = .front) (f t : Expr B) (c : Bool) (cat : Cat)
    (args : List (Expr B)) (m : Mem V L) (hok : b.ConstOk c) (hokt : ∀ el ∈ b.els, el.constOk t.c)
    (hidx : ∀ e, args = [e] → idxOf e.base ≠ some 0 ∧ idxOf e.base ≠ some 1) (hlt : ∀ e ∈ args, e.addr < m.next) (hx : XvApart args)
    (conv : Ty B → Ty B → Bool) (fallback : Bool) (sig : Sig B) (r : Ty B) (hs : b.static conv fallback sig f t c (args.map Expr.type) = .ok r) :
    ∃ fe es m' r1 r2, sig fe.type (es.map Expr.type) = some r1 ∧ conv r1 r2 = true ∧ conv r2 r = true ∧
      ∀ (R : Type) (code : Code B V L R), b.call Λ idxOf code c cat args m =
        .invoked (code fe es m').1 ((code fe es m').2.killRange m.next m'.next) := by
  obtain ⟨fe, ts, as, m', -, hf, hts, has, hcall⟩ := call_front Λ idxOf b hd c cat args m hok hidx hlt hx
  have h1 : fe.type = b.f.calleeTy c := by
    rcases hb : b.f with x | ⟨ty, a⟩
    · rw [hb] at hf
      obtain ⟨k1, k2, k3, k4, -⟩ := hf
      rcases fe with ⟨x1, x2, x3, x4, x5⟩
      simp only at k1 k2 k3 k4
      subst k1 k2 k3 k4
      rfl
    · rw [hb] at hf
      simp only [CalleeRef] at hf
      subst hf
      rfl
  have h2 : (ts ++ as).map Expr.type = b.els.map (Elem.passTy (b.tupleConst c)) ++ (args.map Expr.type).map Ty.asLref := by
    rw [List.map_append, passed_types hts, pairs_types (g := Ty.asLref) has]
    intro a b h
    simp only [Captured] at h
    rcases a with ⟨x1, x2, x3, x4, x5⟩
    cases x4
    · simp only at h; subst h; rfl
    · obtain ⟨k1, k2, k3, k4, -⟩ := h
      rcases b with ⟨y1, y2, y3, y4, y5⟩
      simp only at k1 k2 k3 k4
      subst k1 k2 k3 k4
      rfl
  rw [static_eq conv fallback sig b f t c _ hok hokt, hd] at hs
  simp only at hs
  split at hs
  · simp at hs
  · rename_i r0 h0
    split at hs
    · rename_i r2 hb
      have hr : (b.f.calleeTy c).asLref = b.f.calleeTy c := by rcases b.f with x | ⟨ty, a⟩ <;> rfl
      simp only [bindBackStatic] at hb
      split at hb
      · simp at hb
      · rename_i r2' h2'
        rw [hr] at hb
        cases hsig : sig (b.f.calleeTy c) (b.els.map (Elem.passTy (b.tupleConst c)) ++ (args.map Expr.type).map Ty.asLref) with
        | none => rw [hsig] at hb; simp [returnAs] at hb
        | some r1 =>
          rw [hsig] at hb
          simp only [returnAs] at hb hs
          split at hb
          · rename_i hc1
            split at hs
            · rename_i hc2
              simp only [Static.ok.injEq] at hb hs
              subst hb hs
              exact ⟨fe, ts ++ as, m', r1, _, by rw [h1, h2, hsig], hc1, hc2, hcall⟩
            · simp at hs
          · simp at hb
    · simp at hs

/-- **C58**, soundness of `<<`, for standard libraries that do not try const overloads. -/
theorem C58_back_sound (Λ : Lang B V) (idxOf : B → Option Nat) (b : Bound B) (hd : b.dir = .back) (f t : Expr B) (c : Bool) (cat : Cat)
    (args : List (Expr B)) (m : Mem V L) (hok : b.ConstOk c) (hr : b.InRange m.next) (hokt : ∀ el ∈ b.els, el.constOk t.c)
    (hidx : ∀ e, args = [e] → idxOf e.base ≠ some 0 ∧ idxOf e.base ≠ some 1) (hlt : ∀ e ∈ args, e.addr < m.next) (hx : Apart args)
    (conv : Ty B → Ty B → Bool) (sig : Sig B) (r : Ty B) (hs : b.static conv false sig f t c (args.map Expr.type) = .ok r) :
    ∃ fe es m' r1, sig fe.type (es.map Expr.type) = some r1 ∧ conv r1 r = true ∧
      ∀ (R : Type) (code : Code B V L R), b.call Λ idxOf code c cat args m =
        .invoked (code fe es m').1 ((code fe es m').2.killRange m.next m'.next) := by
  obtain ⟨fe, ts, as, m', -, hf, hts, has, hcall⟩ := call_back Λ idxOf b hd c cat args m hok hr hidx hlt hx
  have h1 : fe.type = (b.f.calleeTy c).decayRref := by
    obtain ⟨k2, k3, k4, -, -, k⟩ := hf
    have k1 : fe.base = (b.f.calleeTy c).base := by
      rcases hb : b.f with x | ⟨ty, a⟩ <;> rw [hb] at k <;> exact k.1
    rcases fe with ⟨x1, x2, x3, x4, x5⟩
    simp only at k1 k2 k3 k4
    subst k1 k2 k3 k4
    rfl
  have h2 : (as ++ ts).map Expr.type = (args.map Expr.type).map Ty.decayRref ++ b.els.map (Elem.passTy (b.tupleConst c)) := by
    rw [List.map_append, passed_types hts, pairs_types (g := Ty.decayRref) has]
    intro a b h
    obtain ⟨k1, k2, k3, k4, -⟩ := h
    rcases b with ⟨y1, y2, y3, y4, y5⟩
    simp only at k1 k2 k3 k4
    subst k1 k2 k3 k4
    rfl
  rw [static_eq conv false sig b f t c _ hok hokt, hd] at hs
  simp only at hs
  split at hs
  · simp at hs
  · split at hs
    · rename_i r1 hb
      simp only [returnAs] at hs
      split at hs
      · rename_i hc
        simp only [Static.ok.injEq] at hs
        subst hs
        refine ⟨fe, as ++ ts, m', r1, ?_, hc, hcall⟩
        rw [h1, h2]
        simp only [stdBindFrontStatic] at hb
        split at hb
        · rename_i r1' h1'
          rw [h1', hb]
        · simp at hb
      · simp at hs
    · simp at hs

omit [DecidableEq B] in
/-- **C58** for `bind_back` (partial: for lvalues). -/
theorem C58_bind_back_partial (conv : Ty B → Ty B → Bool) (hconv : ∀ r, conv r r = true) (sig : Sig B) (f : Ty B) (hf : f.ref = .lref)
    (back front : List (Ty B)) (hb : ∀ a ∈ back, a.ref = .lref) : Friendly (sig f (front ++ back)) (bindBackStatic conv sig f back front) := by
  have h1 : f.asLref = f := by rcases f with ⟨b, c, v, r⟩; simp only at hf; subst hf; rfl
  simp only [bindBackStatic, h1, asLref_of_lref back hb]
  cases hs : sig f (front ++ back) with
  | none => rfl
  | some r => simp [Friendly, returnAs, hconv]

/-! ### Cases -/

namespace SigDemo

inductive SB where
  | int
  | dbl
  | ptr    -- `std::unique_ptr<int>`
  | fn     -- a callable with captures
  | efn    -- one without
  | tup    -- `compressed_tuple<int>`
  deriving DecidableEq

def Λ : Lang SB Nat := ⟨fun b => decide (b = .efn), fun _ => 0, fun _ => 0, fun _ => 0⟩
def mem : Mem Nat Unit := ⟨fun _ => 0, fun _ => true, 9, (), []⟩
def fn : Expr SB := ⟨.fn, false, false, .xv, 3⟩
def tup : Expr SB := ⟨.tup, false, false, .xv, 4⟩
def els : List (Elem SB) := [.stored ⟨.int, false, false, .none⟩ 5]
def val (b : SB) : Ty SB := ⟨b, false, false, .none⟩
def lref (b : SB) : Ty SB := ⟨b, false, false, .lref⟩
def rref (b : SB) : Ty SB := ⟨b, false, false, .rref⟩
/-- Identity and `int` to `double`. -/
def conv (a b : Ty SB) : Bool := decide (a = b) || (decide (a.base = .int) && decide (b = val .dbl))

/-- `compressed_tuple{ 1 } >> f` and `<< f` -/
def bound (dir : Dir) : Option (Bound SB) := (bindTuple Λ dir fn tup els mem).map (·.1)
/-- `compressed_tuple{ 1 } >> f` called with arguments of these types. -/
def front (sig : Sig SB) (c : Bool) (args : List (Ty SB)) : Option (Static SB) := (bound .front).map fun b => b.static conv true sig fn tup c args
def back (sig : Sig SB) (c : Bool) (args : List (Ty SB)) : Option (Static SB) := (bound .back).map fun b => b.static conv false sig fn tup c args

/-- `[](int, double) -> double`, not mutable; lvalues and rvalues, `int` to `double` converted. -/
def sum : Sig SB := fun _ args =>
  match args with
  | [a, b] => if a.base = .int ∧ (b.base = .dbl ∨ b.base = .int) then some (val .dbl) else none
  | _ => none
/-- `[](int, std::unique_ptr<int>) -> int`: does not accept an lvalue as second argument. -/
def takesPtr : Sig SB := fun _ args =>
  match args with
  | [a, b] => if a.base = .int ∧ b = rref .ptr then some (val .int) else none
  | _ => none
/-- `[](int, int &) -> int`: does not accept an rvalue as second argument. -/
def takesRef : Sig SB := fun _ args =>
  match args with
  | [a, b] => if a.base = .int ∧ b = lref .int then some (val .int) else none
  | _ => none
/-- `[...](int) mutable -> int` -/
def mutable1 : Sig SB := fun callee args => if callee.c = false ∧ args.map (·.base) = [.int] then some (val .int) else none
/-- `struct { int operator()(int) &; double operator()(int) &&; }` -/
def twoTypes : Sig SB := fun callee args =>
  if args.map (·.base) = [.int] ∧ callee.c = false then some (if callee.ref = .lref then val .int else val .dbl) else none

example : front sum false [lref .dbl] = some (.ok (val .dbl)) := by decide
example : front sum false [lref .ptr] = some .notViable := by decide
example : front sum false [] = some .notViable := by decide
example : back takesRef false [rref .int] = some (.ok (val .int)) := by decide
example : back sum false [lref .ptr] = some .notViable := by decide
example : ∃ b m', bindTuple Λ .front fn tup els mem = some (b, m') ∧ NoVolatile fn tup els ∧ (Λ.isEmpty fn.base = true → fn.c = false) ∧
    (Λ.isEmpty tup.base = true → ∀ el ∈ els, ∃ y, el = .empty y) ∧ ∀ r, conv r r = true := by
  refine ⟨_, _, rfl, ⟨rfl, rfl, ?_⟩, by simp [fn], by simp [Λ, tup], by simp [conv]⟩
  intro el hel ty a he
  simp only [els, List.mem_singleton] at hel
  subst hel
  simp only [Elem.stored.injEq] at he
  rw [← he.1]

end SigDemo

open SigDemo in
/-- **C58** is false for rvalue arguments of `>>`. A callable that takes a move-only argument accepts the call, so the call is selected, but does not compile; a callable that
accepts lvalues only is not considered, though an lvalue is what it would get. -/
theorem C58_rvalue_arguments :
    (takesPtr (lref .fn) [lref .int, rref .ptr] = some (val .int) ∧ front takesPtr false [rref .ptr] = some .hardError) ∧
    (takesRef (lref .fn) [lref .int, lref .int] = some (val .int) ∧ front takesRef false [rref .int] = some .notViable) := by decide

open SigDemo in
/-- **C58** is false for const bound callables: with a `mutable` callable a call is selected, but does not compile. -/
theorem C58_const_object : mutable1 ⟨.fn, true, false, .lref⟩ [lref .int] = none ∧ front mutable1 true [] = some .hardError ∧
    front mutable1 false [] = some (.ok (val .int)) := by decide

open SigDemo in
/-- **C58** is false for rvalues in `bind_back`: the result has the type the callable returns as an rvalue, while it is called as an lvalue. -/
theorem C58_bind_back_type : twoTypes (lref .fn) [lref .int] = some (val .int) ∧ bindBackStatic conv twoTypes (rref .fn) [] [lref .int] = .ok (val .dbl) := by
  decide

end Pigro.Cxx
