import Verif.Proofs.Make
import Verif.Props.CompressedTuple
/-!
# C22-C26: bind_tuple.h
-/
namespace Pigro.Cxx
variable {B V L R : Type} [DecidableEq B]

/-! ### C22, C23 -/

/-- **C22** (partial: not if the only argument is an `idx_t<0>` or `idx_t<1>`), any bound callable in any state: a call invokes the code once, with
the stored callable (`CalleeRef`), the bound elements (`PassedElem`) followed by the call arguments (`Captured`), and passes the result on; apart
from what the code does only new objects are made, which are gone afterwards, and rvalue arguments moved from. New objects are different ones. The expressions
are the same whatever the code is. -/
theorem C22_any_state_partial (Λ : Lang B V) (idxOf : B → Option Nat) (b : Bound B) (hd : b.dir = .front) (c : Bool)
    (cat : Cat) (args : List (Expr B)) (m : Mem V L) (hok : b.ConstOk c)
    (hidx : ∀ e, args = [e] → idxOf e.base ≠ some 0 ∧ idxOf e.base ≠ some 1)
    (hlt : ∀ e ∈ args, e.addr < m.next) (hx : XvApart args) :
    ∃ fe ts as m', (b.InRangeAll m.next → NewApart m.next (fe :: (ts ++ as))) ∧
      Grows (fun a => ∃ e ∈ args, Moves e a) m m' ∧ CalleeRef Λ m m' c b.f fe ∧
      Pairs (PassedElem Λ m m' (b.tupleConst c)) b.els ts ∧ Pairs (Captured m m') args as ∧
      ∀ (R : Type) (code : Code B V L R), b.call Λ idxOf code c cat args m =
        .invoked (code fe (ts ++ as) m').1 ((code fe (ts ++ as) m').2.killRange m.next m'.next) := by
  obtain ⟨fe, ts, as, m', -, h⟩ := call_front_exact Λ idxOf b hd c cat args m hok hidx hlt hx
  exact ⟨fe, ts, as, m', h⟩

/-- **C23** (partial in the same way), any bound callable in any state. The callee is a copy of the stored callable and the arguments are copies. -/
theorem C23_any_state_partial (Λ : Lang B V) (idxOf : B → Option Nat) (b : Bound B) (hd : b.dir = .back) (c : Bool)
    (cat : Cat) (args : List (Expr B)) (m : Mem V L) (hok : b.ConstOk c) (hr : b.InRange m.next)
    (hidx : ∀ e, args = [e] → idxOf e.base ≠ some 0 ∧ idxOf e.base ≠ some 1)
    (hlt : ∀ e ∈ args, e.addr < m.next) (hx : Apart args) :
    ∃ fe ts as m', (b.InRangeAll m.next → NewApart m.next (fe :: (as ++ ts))) ∧
      Grows (fun a => ∃ e ∈ args, Moves e a) m m' ∧ CalleeCopy Λ m m' b.f fe ∧
      Pairs (PassedElem Λ m m' (b.tupleConst c)) b.els ts ∧ Pairs (Decayed m m') args as ∧
      ∀ (R : Type) (code : Code B V L R), b.call Λ idxOf code c cat args m =
        .invoked (code fe (as ++ ts) m').1 ((code fe (as ++ ts) m').2.killRange m.next m'.next) :=
  call_back_exact Λ idxOf b hd c cat args m hok hr hidx hlt hx

omit [DecidableEq B] in
/-- Values of captured arguments. -/
theorem captured_values {m m' : Mem V L} {args as : List (Expr B)} (hp : Pairs (Captured m m') args as)
    (hl : ∀ e ∈ args, e.cat = .lv → m'.get e.addr = m.get e.addr) :
    (as.map fun e => m'.get e.addr) = args.map fun e => m.get e.addr := by
  apply List.ext_getElem?
  intro i
  by_cases hi : i < args.length
  · obtain ⟨e', h1, h2⟩ := hp.2 i args[i] (by simp [hi])
    rw [List.getElem?_map, h1, List.getElem?_map, List.getElem?_eq_getElem hi]
    simp only [Option.map_some, Option.some.injEq]
    simp only [Captured] at h2
    rcases hc : args[i].cat with _ | _ <;> simp only [hc] at h2
    · rw [h2]; exact hl _ (by simp) hc
    · exact h2.2.2.2.2.2.2
  · rw [List.getElem?_eq_none (by rw [List.length_map, hp.1]; omega), List.getElem?_eq_none (by rw [List.length_map]; omega)]

omit [DecidableEq B] in
/-- Values of decayed copies. -/
theorem decayed_values {m m' : Mem V L} {args as : List (Expr B)} (hp : Pairs (Decayed m m') args as) :
    (as.map fun e => m'.get e.addr) = args.map fun e => m.get e.addr := by
  apply List.ext_getElem?
  intro i
  by_cases hi : i < args.length
  · obtain ⟨e', h1, h2⟩ := hp.2 i args[i] (by simp [hi])
    rw [List.getElem?_map, h1, List.getElem?_map, List.getElem?_eq_getElem hi]
    simp only [Option.map_some, Option.some.injEq]
    exact h2.2.2.2.2.2.2
  · rw [List.getElem?_eq_none (by rw [List.length_map, hp.1]; omega), List.getElem?_eq_none (by rw [List.length_map]; omega)]

/-- **C22** (partial as above, and not for a lone `compressed_tuple` as bound value, for which none is bound, see C27).
`(compressed_tuple{ v... } >> f)(args...)` invokes the code of `f` once, on an object with the value of `f`, with objects
that have the values `v...` followed by the values `args...`. -/
theorem C22_bind_front_partial (Λ : Lang B V) (isCT : B → Bool) (idxOf : B → Option Nat) (tb : B) (vs : List (Expr B))
    (f : Expr B) (m : Mem V L) (hlt : ∀ e ∈ vs, e.addr < m.next) (hf : f.addr < m.next)
    (hE : ∀ e ∈ vs, Λ.isEmpty e.base = true → m.get e.addr = Λ.emptyVal e.base)
    (hEf : Λ.isEmpty f.base = true → m.get f.addr = Λ.emptyVal f.base)
    (hlone : ∀ e, vs = [e] → isCT e.base = false) (htb : Λ.isEmpty tb = vs.all fun e => Λ.isEmpty e.base) :
    ∃ b m1, makeBound Λ isCT tb .front vs f m = some (b, m1) ∧
      ∀ (cat : Cat) (args : List (Expr B)),
        (∀ e, args = [e] → idxOf e.base ≠ some 0 ∧ idxOf e.base ≠ some 1) →
        (∀ e ∈ args, e.addr < m.next ∧ (e.cat = .xv → e.addr ≠ f.addr)) → Apart args →
        ∃ fe ts as m', m'.get fe.addr = m.get f.addr ∧ m'.world = m.world ∧
          (ts.map fun e => m'.get e.addr) = (vs.map fun e => m.get e.addr) ∧
          (as.map fun e => m'.get e.addr) = (args.map fun e => m1.get e.addr) ∧
          ∀ (R : Type) (code : Code B V L R), b.call Λ idxOf code false cat args m1 =
            .invoked (code fe (ts ++ as) m').1 ((code fe (ts ++ as) m').2.killRange m1.next m'.next) := by
  obtain ⟨b, m1, hmk, hd, -, hok, hsep, -, -, -, -, hfh, hall, hw, hn, hlo1, hlo2, -, -⟩ := makeBound_spec Λ isCT tb .front vs f m hlt hf hE hEf
    hlone htb
  refine ⟨b, m1, hmk, ?_⟩
  intro cat args hidx hargs hap
  obtain ⟨sf, se, -, -⟩ := hsep.spec
  obtain ⟨fe, ts, as, m', g, hfe, hts, has, hcall⟩ := call_front Λ idxOf b hd false cat args m1 hok hidx
    (fun e he => by have := (hargs e he).1; omega) hap.xv
  have hS : ∀ a, (∃ e ∈ args, Moves e a) → a < m.next ∧ a ≠ f.addr := by
    rintro a ⟨e, he, h1, h2, h3⟩
    have := hargs e he
    exact ⟨by omega, by rw [← h1]; exact this.2 h2⟩
  refine ⟨fe, ts, as, m', ?_, by rw [g.world, hw], ?_, ?_, hcall⟩
  · rcases hbf : b.f with x | ⟨ty, a⟩
    · rw [hbf] at hfe hfh
      rw [hfe.2.2.2.2.2.2]
      exact hfh.symm
    · rw [hbf] at hfe hfh
      rw [hfe]
      simp only
      rw [g.frame a (sf ty a hbf)]
      · exact hfh
      · intro h
        have := hS a h
        rcases hlo1 ty a hbf with h | h
        · exact this.2 h
        · omega
  · refine holdAll_map (S := fun a => ∃ e ∈ args, Moves e a) g hall hts ?_
    intro i ty a hi
    refine ⟨se i ty a hi, fun h => ?_⟩
    have := hS a h
    have := hlo2 i ty a hi
    omega
  · refine captured_values has ?_
    intro e he hlv
    refine g.frame _ (by have := (hargs e he).1; omega) ?_
    rintro ⟨e', he', h1, h2, -⟩
    obtain ⟨i, hi, rfl⟩ := List.getElem_of_mem he
    obtain ⟨j, hj, rfl⟩ := List.getElem_of_mem he'
    rw [Apart, List.pairwise_iff_getElem] at hap
    rcases Nat.lt_trichotomy i j with h | h | h
    · exact hap i j hi hj h (.inr h2) h1.symm
    · subst h; rw [hlv] at h2; simp at h2
    · exact hap j i hj hi h (.inl h2) h1

/-- **C23** (partial in the same way). `(compressed_tuple{ v... } << f)(args...)` invokes the code of `f` once, on an object with the value of
`f`, with objects that have the values `args...` followed by the values `v...`. -/
theorem C23_bind_back_partial (Λ : Lang B V) (isCT : B → Bool) (idxOf : B → Option Nat) (tb : B) (vs : List (Expr B))
    (f : Expr B) (m : Mem V L) (hlt : ∀ e ∈ vs, e.addr < m.next) (hf : f.addr < m.next)
    (hE : ∀ e ∈ vs, Λ.isEmpty e.base = true → m.get e.addr = Λ.emptyVal e.base)
    (hEf : Λ.isEmpty f.base = true → m.get f.addr = Λ.emptyVal f.base)
    (hlone : ∀ e, vs = [e] → isCT e.base = false) (htb : Λ.isEmpty tb = vs.all fun e => Λ.isEmpty e.base) :
    ∃ b m1, makeBound Λ isCT tb .back vs f m = some (b, m1) ∧
      ∀ (cat : Cat) (args : List (Expr B)),
        (∀ e, args = [e] → idxOf e.base ≠ some 0 ∧ idxOf e.base ≠ some 1) →
        (∀ e ∈ args, e.addr < m.next) → Apart args →
        ∃ fe ts as m', m'.get fe.addr = m.get f.addr ∧ m'.world = m.world ∧
          (ts.map fun e => m'.get e.addr) = (vs.map fun e => m.get e.addr) ∧
          (as.map fun e => m'.get e.addr) = (args.map fun e => m1.get e.addr) ∧
          ∀ (R : Type) (code : Code B V L R), b.call Λ idxOf code false cat args m1 =
            .invoked (code fe (as ++ ts) m').1 ((code fe (as ++ ts) m').2.killRange m1.next m'.next) := by
  obtain ⟨b, m1, hmk, hd, -, hok, hsep, -, -, -, -, hfh, hall, hw, hn, hlo1, hlo2, -, -⟩ := makeBound_spec Λ isCT tb .back vs f m hlt hf hE hEf
    hlone htb
  refine ⟨b, m1, hmk, ?_⟩
  intro cat args hidx hargs hap
  obtain ⟨sf, se, -, -⟩ := hsep.spec
  obtain ⟨fe, ts, as, m', g, hfe, hts, has, hcall⟩ := call_back Λ idxOf b hd false cat args m1 hok (fun ty a h => sf ty a h) hidx
    (fun e he => by have := hargs e he; omega) hap
  refine ⟨fe, ts, as, m', ?_, by rw [g.world, hw], ?_, decayed_values has, hcall⟩
  · obtain ⟨-, -, -, -, -, h6⟩ := hfe
    rcases hbf : b.f with x | ⟨ty, a⟩
    · rw [hbf] at h6 hfh
      rw [h6.2]
      exact hfh.symm
    · rw [hbf] at h6 hfh
      rw [h6.2]
      exact hfh
  · refine holdAll_map (S := fun a => ∃ e ∈ args, Moves e a) g hall hts ?_
    intro i ty a hi
    refine ⟨se i ty a hi, ?_⟩
    rintro ⟨e, he, h, -⟩
    have := hargs e he
    have := hlo2 i ty a hi
    omega

/-- **C22 and C23 are false** for a lone argument of type `idx_t<0>` or `idx_t<1>`: the call selects the lambda of a stored element, the code
is not invoked; the result is the stored callable or the stored tuple. -/
theorem C22_idx_argument (Λ : Lang B V) (idxOf : B → Option Nat) (code : Code B V L R) (b : Bound B) (c : Bool) (cat : Cat)
    (e : Expr B) (m : Mem V L) :
    (idxOf e.base = some 0 → b.call Λ idxOf code c cat [e] m = .element (getSpec (some b.f) c cat)) ∧
    (idxOf e.base = some 1 → b.call Λ idxOf code c cat [e] m = .element (getSpec (some b.t) c cat)) := by
  have hp : ∀ (I : Nat) (k : Bool), I = 0 ∨ I = 1 → ∃ l, pickLam b.lams (some I) true k = .pick l ∧ l ≠ .generic := by
    intro I k hI
    rcases b with ⟨dir, f, t, els⟩
    rcases hI with rfl | rfl <;> rcases f with x | ⟨ty, a⟩ <;> rcases t with y | ⟨ty', a'⟩ <;> cases k <;>
      simp [Bound.lams, lams, Elem.lams, pickLam, Ovl.callOverload, Ovl.resolve, Ovl.isBest, Lam.viable, Lam.better,
        Lam.isConst, List.filter]
  suffices H : ∀ I, I = 0 ∨ I = 1 → idxOf e.base = some I →
      b.call Λ idxOf code c cat [e] m = .element (getSpec [b.f, b.t][I]? c cat) from ⟨H 0 (.inl rfl), H 1 (.inr rfl)⟩
  intro I hI h
  have hsel : recursiveCall (fun callee (_ : Expr Unit) => b.accepts (loneIndex idxOf [e]) callee.c) (tupleExpr c cat) =
      some (tupleExpr c cat, tupleExpr c cat) := by
    rw [C36_selection]
    have ha : ∀ k, b.accepts (loneIndex idxOf [e]) k = true := by
      intro k
      obtain ⟨l, hl, -⟩ := hp I k hI
      simp only [Bound.accepts, loneIndex, h, hl]
    simp only [ha]
    cases c <;> cases cat <;> simp [tupleExpr, passes]
  obtain ⟨l, hl, hne⟩ := hp I (tupleExpr c cat).c hI
  simp only [Bound.call, hsel]
  have hg : callIdx b.lams I 2 (tupleExpr c cat) = getSpec [b.f, b.t][I]? c cat := by
    rw [Bound.lams, callIdx_append_generic, ← get_eq]
    rfl
  simp only [loneIndex, h, hl]
  rcases l with _ | _ | _ | _
  · simp only [hg]
  · simp only [hg]
  · simp only [hg]
  · exact absurd rfl hne

/-- Everything the code gets exists while it runs, if what the bound callable refers to and the arguments do. -/
theorem C22_alive (Λ : Lang B V) (idxOf : B → Option Nat) (b : Bound B) (c : Bool)
    (cat : Cat) (args : List (Expr B)) (m : Mem V L) (hok : b.ConstOk c) (hsep : b.Separate m.next)
    (hidx : ∀ e, args = [e] → idxOf e.base ≠ some 0 ∧ idxOf e.base ≠ some 1)
    (hlt : ∀ e ∈ args, e.addr < m.next) (hx : Apart args)
    (hargs : ∀ e ∈ args, m.alive e.addr = true)
    (hobj : ∀ el ∈ b.f :: b.els, ∀ ty a, el = .stored ty a → m.alive a = true) :
    ∃ fe es m', m'.alive fe.addr = true ∧ (∀ e ∈ es, m'.alive e.addr = true) ∧
      ∀ (R : Type) (code : Code B V L R), b.call Λ idxOf code c cat args m =
        .invoked (code fe es m').1 ((code fe es m').2.killRange m.next m'.next) := by
  obtain ⟨sf, se, -, -⟩ := hsep.spec
  have old : ∀ (m' : Mem V L), Grows (fun a => ∃ e ∈ args, Moves e a) m m' →
      ∀ ts, Pairs (PassedElem Λ m m' (b.tupleConst c)) b.els ts → ∀ e ∈ ts, m'.alive e.addr = true := by
    intro m' g ts hts e he
    obtain ⟨i, hi⟩ := List.mem_iff_getElem?.1 he
    have hil : i < b.els.length := by have := (List.getElem?_eq_some_iff.1 hi).1; have := hts.1; omega
    obtain ⟨e', h1, h2⟩ := hts.2 i b.els[i] (by simp [hil])
    rw [hi, Option.some.injEq] at h1
    subst h1
    rcases hel : b.els[i] with x | ⟨ty, a⟩
    · rw [hel] at h2
      exact g.aliveNew _ h2.2.2.2.2.1 h2.2.2.2.2.2.1
    · rw [hel] at h2
      rw [h2]
      have hi' : b.els[i]? = some (.stored ty a) := by simp [hil, hel]
      simp only
      rw [g.aliveOld _ (se i ty a hi')]
      exact hobj _ (List.mem_cons_of_mem _ (List.mem_of_getElem? hi')) ty a rfl
  rcases hd : b.dir
  · obtain ⟨fe, ts, as, m', g, hf, hts, has, hcall⟩ := call_front Λ idxOf b hd c cat args m hok hidx hlt hx.xv
    refine ⟨fe, ts ++ as, m', ?_, ?_, hcall⟩
    · rcases hbf : b.f with x | ⟨ty, a⟩
      · rw [hbf] at hf
        exact g.aliveNew _ hf.2.2.2.2.1 hf.2.2.2.2.2.1
      · rw [hbf] at hf
        rw [hf]
        simp only
        rw [g.aliveOld _ (sf ty a hbf)]
        exact hobj _ List.mem_cons_self ty a hbf
    · intro e he
      rcases List.mem_append.1 he with he | he
      · exact old m' g ts hts e he
      · obtain ⟨i, hi⟩ := List.mem_iff_getElem?.1 he
        have hil : i < args.length := by have := (List.getElem?_eq_some_iff.1 hi).1; have := has.1; omega
        obtain ⟨e', h1, h2⟩ := has.2 i args[i] (by simp [hil])
        rw [hi, Option.some.injEq] at h1
        subst h1
        simp only [Captured] at h2
        rcases hc : args[i].cat with _ | _ <;> simp only [hc] at h2
        · rw [h2, g.aliveOld _ (hlt _ (by simp))]
          exact hargs _ (by simp)
        · exact g.aliveNew _ h2.2.2.2.2.1 h2.2.2.2.2.2.1
  · obtain ⟨fe, ts, as, m', g, hf, hts, has, hcall⟩ := call_back Λ idxOf b hd c cat args m hok sf hidx hlt hx
    refine ⟨fe, as ++ ts, m', g.aliveNew _ hf.2.2.2.1 hf.2.2.2.2.1, ?_, hcall⟩
    intro e he
    rcases List.mem_append.1 he with he | he
    · obtain ⟨i, hi⟩ := List.mem_iff_getElem?.1 he
      have hil : i < args.length := by have := (List.getElem?_eq_some_iff.1 hi).1; have := has.1; omega
      obtain ⟨e', h1, h2⟩ := has.2 i args[i] (by simp [hil])
      rw [hi, Option.some.injEq] at h1
      subst h1
      exact g.aliveNew _ h2.2.2.2.2.1 h2.2.2.2.2.2.1
    · exact old m' g ts hts e he

/-! ### C24 -/

omit [DecidableEq B] in
/-- **C24.** The binder made by `bind_back(f, back...)` always invokes the code, in whatever memory it is called, with the front arguments
followed by the same expressions: for an lvalue that very object, for an rvalue an object of the binder made from it, different ones for
different rvalues. -/
theorem C24_bind_back (Λ : Lang B V) (f : Expr B) (back : List (Expr B)) (m : Mem V L)
    (hlt : ∀ e ∈ f :: back, e.addr < m.next) (hx : XvApart (f :: back)) :
    ∃ bf m', bindBack Λ f back m = (bf, m') ∧ ∃ fe bs, Captured m m' f fe ∧ Pairs (Captured m m') back bs ∧
      ((fe :: bs).Pairwise fun x y => m.next ≤ x.addr → m.next ≤ y.addr → x.addr ≠ y.addr) ∧
      Grows (fun a => ∃ e ∈ f :: back, Moves e a) m m' ∧
      ∀ (R : Type) (code : Code B V L R) (front : List (Expr B)) (mc : Mem V L),
        bf.call code front mc = code fe (front ++ bs) mc := by
  obtain ⟨g, hl, hk⟩ := captureAll_spec Λ (f :: back) m hlt hx
  have hf := (captureAll_fresh Λ m.next (f :: back) m (Nat.le_refl _) hlt).1
  simp only [captureAll, List.map_cons] at g hl hk hf
  refine ⟨_, _, rfl, (fwdCapture Λ f m).1.accessLv, (captureAll Λ back (fwdCapture Λ f m).2).1.map Elem.accessLv, ?_, ⟨?_, ?_⟩, ?_, ?_, ?_⟩
  · obtain ⟨e', h1, h2⟩ := hk 0 f rfl
    simp only [List.getElem?_cons_zero, Option.some.injEq] at h1
    rw [h1]
    exact h2
  · simpa using hl
  · intro i e hi
    exact hk (i + 1) e (by simpa using hi)
  · refine List.Pairwise.imp ?_ hf
    intro x y h h1 h2
    exact Nat.ne_of_lt (h h1 h2)
  · exact g
  · intro R code front mc
    rfl

/-! ### C25 -/

/-- Repeated calls of `t >> f`, from any state. -/
theorem runCalls_front (Λ : Lang B V) (idxOf : B → Option Nat) (b : Bound B) (hd : b.dir = .front) (pf : PureFn V L R)
    (hok : b.ConstOk false) : ∀ (calls : List (Cat × List (B × V))) (m : Mem V L) (s : V) (vs : List V),
    b.Separate m.next → (∀ p ∈ calls, ∀ x, p.2 = [x] → idxOf x.1 ≠ some 0 ∧ idxOf x.1 ≠ some 1) →
    b.f.holds Λ m s → HoldAll Λ m b.els vs →
    b.runCalls Λ idxOf pf.code calls m = runFront pf b calls s vs m.world
  | [], _, _, _, _, _, _, _ => rfl
  | (cat, vals) :: calls, m, s, vs, hsep, hidx, hs, hvs => by
    obtain ⟨m', h1, h2, h3, h4, h5⟩ := callWith_front Λ idxOf b hd cat pf vals m s vs hok hsep
      (hidx (cat, vals) (by simp)) hs hvs
    rw [Bound.runCalls, h1, runFront]
    simp only [List.cons.injEq, true_and]
    rw [runCalls_front Λ idxOf b hd pf hok calls m' _ _ h2 (fun p hp => hidx p (by simp [hp])) h4 h5, h3]

/-- Repeated calls of `t << f`, from any state. -/
theorem runCalls_back (Λ : Lang B V) (idxOf : B → Option Nat) (b : Bound B) (hd : b.dir = .back) (pf : PureFn V L R)
    (hok : b.ConstOk false) : ∀ (calls : List (Cat × List (B × V))) (m : Mem V L) (s : V) (vs : List V),
    b.Separate m.next → (∀ p ∈ calls, ∀ x, p.2 = [x] → idxOf x.1 ≠ some 0 ∧ idxOf x.1 ≠ some 1) →
    b.f.holds Λ m s → HoldAll Λ m b.els vs →
    b.runCalls Λ idxOf pf.code calls m = runBack pf b calls s vs m.world
  | [], _, _, _, _, _, _, _ => rfl
  | (cat, vals) :: calls, m, s, vs, hsep, hidx, hs, hvs => by
    obtain ⟨m', h1, h2, h3, h4, h5⟩ := callWith_back Λ idxOf b hd cat pf vals m s vs hok hsep
      (hidx (cat, vals) (by simp)) hs hvs
    rw [Bound.runCalls, h1, runBack]
    simp only [List.cons.injEq, true_and]
    rw [runCalls_back Λ idxOf b hd pf hok calls m' _ _ h2 (fun p hp => hidx p (by simp [hp])) h4 h5, h3]

/-- Specification: `f(v..., args...)` called again and again on one `f` and one `v...`. `keep`: `f` can change its own state (it is not of
empty type, and not const); `keeps`: likewise for the values. -/
def callAgain (pf : PureFn V L R) (keep : Bool) (keeps : List Bool) : List (List V) → V → List V → L → List R
  | [], _, _, _ => []
  | args :: calls, s, vs, w =>
    let r := pf s (vs ++ args) w
    r.1 :: callAgain pf keep keeps calls (if keep then r.2.1 else s)
      ((vs.zip keeps).mapIdx fun i p => if p.2 then r.2.2.1 i else p.1) r.2.2.2

/-- Specification: as before with `f(args..., v...)`, and `f` the same in each call. -/
def callFresh (pf : PureFn V L R) (keeps : List Bool) : List (List V) → V → List V → L → List R
  | [], _, _, _ => []
  | args :: calls, s, vs, w =>
    let r := pf s (args ++ vs) w
    r.1 :: callFresh pf keeps calls s
      ((vs.zip keeps).mapIdx fun i p => if p.2 then r.2.2.1 (args.length + i) else p.1) r.2.2.2

omit [DecidableEq B] in
theorem updateVals_zip (g : Nat → V) : ∀ (els : List (Elem B)) (vs : List V) (k : Nat), vs.length = els.length →
    (∀ (i : Nat) ty a, els[i]? = some (.stored ty a) → ty.c = false) →
    updateVals false els vs g k =
      (vs.zip (els.map Elem.hasState)).mapIdx
        fun i p => if p.2 then g (k + i) else p.1
  | [], [], _, _, _ => rfl
  | el :: els, v :: vs, k, hl, hc => by
    rw [updateVals, List.map_cons, List.zip_cons_cons, List.mapIdx_cons]
    rw [updateVals_zip g els vs (k + 1) (by simpa using hl) (fun i ty a h => hc (i + 1) ty a (by simpa using h))]
    congr 1
    · rcases el with x | ⟨ty, a⟩
      · rfl
      · simp [Elem.updated, hc 0 ty a (by simp), Elem.hasState]
    · congr 1
      funext i p
      rw [show k + 1 + i = k + (i + 1) by omega]

omit [DecidableEq B] in
theorem runFront_eq (pf : PureFn V L R) (b : Bound B) (keep : Bool) (keeps : List Bool)
    (hk : ∀ s x : V, b.f.updated false s x = if keep then x else s)
    (hks : ∀ (vs : List V) (g : Nat → V), vs.length = b.els.length → updateVals (b.tupleConst false) b.els vs g 0 =
      (vs.zip keeps).mapIdx fun i p => if p.2 then g i else p.1) (hlen : keeps.length = b.els.length) :
    ∀ (calls : List (Cat × List (B × V))) (s : V) (vs : List V) (w : L), vs.length = b.els.length →
      runFront pf b calls s vs w = (callAgain pf keep keeps (calls.map fun p => p.2.map (·.2)) s vs w).map some
  | [], _, _, _, _ => rfl
  | (cat, vals) :: calls, s, vs, w, hl => by
    rw [runFront, List.map_cons, callAgain, List.map_cons]
    simp only [List.cons.injEq, true_and]
    rw [hk, hks vs _ hl, runFront_eq pf b keep keeps hk hks hlen calls _ _ _ (by simp [hl, hlen])]

omit [DecidableEq B] in
theorem runBack_eq (pf : PureFn V L R) (b : Bound B) (keeps : List Bool)
    (hks : ∀ (vs : List V) (g : Nat → V) (k : Nat), vs.length = b.els.length → updateVals (b.tupleConst false) b.els vs g k =
      (vs.zip keeps).mapIdx fun i p => if p.2 then g (k + i) else p.1) (hlen : keeps.length = b.els.length) :
    ∀ (calls : List (Cat × List (B × V))) (s : V) (vs : List V) (w : L), vs.length = b.els.length →
      runBack pf b calls s vs w = (callFresh pf keeps (calls.map fun p => p.2.map (·.2)) s vs w).map some
  | [], _, _, _, _ => rfl
  | (cat, vals) :: calls, s, vs, w, hl => by
    rw [runBack, List.map_cons, callFresh, List.map_cons]
    simp only [List.cons.injEq, true_and]
    rw [hks vs _ _ hl, runBack_eq pf b keeps hks hlen calls _ _ _ (by simp [hl, hlen])]
    simp only [List.length_map]

/-- **C25** (for `>>`). `auto g = compressed_tuple{ v... } >> f;` and then any number of calls of `g` yield what calling `f(v..., args...)`
again and again yields, own state, bound values and world being handed on from call to call. `f` may be an lvalue or an rvalue; not
covered: a lone `compressed_tuple` as bound value and calls with a lone `idx_t<0>` or `idx_t<1>`. -/
theorem C25_state_kept_front (Λ : Lang B V) (isCT : B → Bool) (idxOf : B → Option Nat) (tb : B) (vs : List (Expr B))
    (f : Expr B) (m : Mem V L) (hlt : ∀ e ∈ vs, e.addr < m.next) (hf : f.addr < m.next)
    (hE : ∀ e ∈ vs, Λ.isEmpty e.base = true → m.get e.addr = Λ.emptyVal e.base)
    (hEf : Λ.isEmpty f.base = true → m.get f.addr = Λ.emptyVal f.base)
    (hlone : ∀ e, vs = [e] → isCT e.base = false) (htb : Λ.isEmpty tb = vs.all fun e => Λ.isEmpty e.base) :
    ∃ g m1, makeBound Λ isCT tb .front vs f m = some (g, m1) ∧ ∀ (R : Type) (pf : PureFn V L R) (calls : List (Cat × List (B × V))),
      (∀ p ∈ calls, ∀ x, p.2 = [x] → idxOf x.1 ≠ some 0 ∧ idxOf x.1 ≠ some 1) →
      g.runCalls Λ idxOf pf.code calls m1 =
        (callAgain pf (!Λ.isEmpty f.base && !f.c) (vs.map fun e => !Λ.isEmpty e.base) (calls.map fun p => p.2.map (·.2))
          (m.get f.addr) (vs.map fun e => m.get e.addr) m.world).map some := by
  obtain ⟨b, m1, hmk, hd, hel, hok, hsep, -, htc, hfc, hec, hfh, hall, hw, hn, -, -, hst, hsts⟩ :=
    makeBound_spec Λ isCT tb .front vs f m hlt hf hE hEf hlone htb
  refine ⟨b, m1, hmk, ?_⟩
  intro R pf calls hidx
  rw [runCalls_front Λ idxOf b hd pf hok calls m1 _ _ hsep hidx hfh hall, hw]
  refine runFront_eq pf b _ _ ?_ ?_ (by simp [hel]) calls _ _ _ (by simp [hel])
  · intro s x
    rcases hbf : b.f with y | ⟨ty, a⟩
    · rw [hbf] at hst
      simp only [Elem.hasState] at hst
      simp [Elem.updated, ← hst]
    · rw [hbf] at hst
      simp only [Elem.hasState] at hst
      simp only [Elem.updated, ← hst, hfc ty a hbf]
      cases f.c <;> rfl
  · intro vs' g hl
    rw [htc, updateVals_zip g b.els vs' 0 hl hec, hsts]
    simp only [Nat.zero_add]

/-- **C25** (partial for `<<`): the bound values and the world are handed on from call to call, but `f` starts from the same own state in each
call (it is copied by `std::bind_front`). -/
theorem C25_state_back_partial (Λ : Lang B V) (isCT : B → Bool) (idxOf : B → Option Nat) (tb : B) (vs : List (Expr B))
    (f : Expr B) (m : Mem V L) (hlt : ∀ e ∈ vs, e.addr < m.next) (hf : f.addr < m.next)
    (hE : ∀ e ∈ vs, Λ.isEmpty e.base = true → m.get e.addr = Λ.emptyVal e.base)
    (hEf : Λ.isEmpty f.base = true → m.get f.addr = Λ.emptyVal f.base)
    (hlone : ∀ e, vs = [e] → isCT e.base = false) (htb : Λ.isEmpty tb = vs.all fun e => Λ.isEmpty e.base) :
    ∃ g m1, makeBound Λ isCT tb .back vs f m = some (g, m1) ∧ ∀ (R : Type) (pf : PureFn V L R) (calls : List (Cat × List (B × V))),
      (∀ p ∈ calls, ∀ x, p.2 = [x] → idxOf x.1 ≠ some 0 ∧ idxOf x.1 ≠ some 1) →
      g.runCalls Λ idxOf pf.code calls m1 =
        (callFresh pf (vs.map fun e => !Λ.isEmpty e.base) (calls.map fun p => p.2.map (·.2))
          (m.get f.addr) (vs.map fun e => m.get e.addr) m.world).map some := by
  obtain ⟨b, m1, hmk, hd, hel, hok, hsep, -, htc, hfc, hec, hfh, hall, hw, hn, -, -, hst, hsts⟩ :=
    makeBound_spec Λ isCT tb .back vs f m hlt hf hE hEf hlone htb
  refine ⟨b, m1, hmk, ?_⟩
  intro R pf calls hidx
  rw [runCalls_back Λ idxOf b hd pf hok calls m1 _ _ hsep hidx hfh hall, hw]
  refine runBack_eq pf b _ ?_ (by simp [hel]) calls _ _ _ (by simp [hel])
  intro vs' g k hl
  rw [htc, updateVals_zip g b.els vs' k hl hec, hsts]

/-- **C25**, direct calls: for a callable and bound values that are not of empty types and lvalue arguments, a call of `t >> f` in whatever
memory *is* the call of the code on the stored objects, nothing else happens. -/
theorem C25_direct_front (Λ : Lang B V) (idxOf : B → Option Nat) (dir : Dir) (hd : dir = .front) (fty : Ty B) (fa : Nat)
    (tty : Ty B) (ta : Nat) (els : List (Ty B × Nat)) (cat : Cat) (args : List (Expr B)) (m : Mem V L) (htc : tty.c = false)
    (hidx : ∀ e, args = [e] → idxOf e.base ≠ some 0 ∧ idxOf e.base ≠ some 1)
    (hlt : ∀ e ∈ args, e.addr < m.next ∧ e.cat = .lv) (code : Code B V L R) :
    let b : Bound B := ⟨dir, .stored fty fa, .stored tty ta, els.map fun p => .stored p.1 p.2⟩
    let r := code ⟨fty.base, fty.c, fty.v, .lv, fa⟩ ((els.map fun p => ⟨p.1.base, p.1.c, p.1.v, .lv, p.2⟩) ++ args) m
    b.call Λ idxOf code false cat args m = .invoked r.1 r.2 := by
  intro b r
  obtain ⟨fe, ts, as, m', hs, -, g, hf, hts, has, hcall⟩ := call_front_exact Λ idxOf b hd false cat args m
    (by
      refine ⟨by simp [Elem.constOk, b], by simp [Elem.constOk, b], ?_⟩
      intro el hel
      obtain ⟨p, -, rfl⟩ := List.mem_map.1 hel
      simp [Elem.constOk, Bound.tupleConst, b, htc]) hidx (fun e he => (hlt e he).1)
    (List.pairwise_iff_getElem.2 fun i j hi _ _ h => by rw [(hlt args[i] (by simp)).2] at h; simp at h)
  have hm : m' = m := hs ⟨_, _, rfl⟩ ⟨_, _, rfl⟩ (by
    intro el hel
    obtain ⟨p, -, rfl⟩ := List.mem_map.1 hel
    exact ⟨_, _, rfl⟩) fun e he => (hlt e he).2
  have hfe : fe = ⟨fty.base, fty.c, fty.v, .lv, fa⟩ := by simpa [CalleeRef, b] using hf
  have hts' : ts = els.map fun p => ⟨p.1.base, p.1.c, p.1.v, .lv, p.2⟩ := by
    apply List.ext_getElem?
    intro i
    by_cases hi : i < els.length
    · obtain ⟨e, h1, h2⟩ := hts.2 i (.stored els[i].1 els[i].2) (by simp [b, hi])
      simp only [PassedElem, Bound.tupleConst, b, htc, Bool.or_false] at h2
      rw [h1, h2]
      simp [hi]
    · have := hts.1
      simp only [b, List.length_map] at this
      rw [List.getElem?_eq_none (by omega), List.getElem?_eq_none (by simp; omega)]
  have has' : as = args := by
    apply List.ext_getElem?
    intro i
    by_cases hi : i < args.length
    · obtain ⟨e, h1, h2⟩ := has.2 i args[i] (by simp [hi])
      simp only [Captured, (hlt args[i] (by simp)).2] at h2
      rw [h1, h2]
      simp [hi]
    · have := has.1
      rw [List.getElem?_eq_none (by omega), List.getElem?_eq_none (by omega)]
  rw [hcall R code, hm, hfe, hts', has', Mem.killRange_self]

/-! ### C26 -/

/-- **C26** (partial): through `>>`, lvalue arguments reach the callable as the same lvalues. Rvalue arguments do not reach it as rvalues: they
are moved into the closure of `bind_back` and reach it as lvalues denoting another object. -/
theorem C26_forwarding_front_partial (Λ : Lang B V) (idxOf : B → Option Nat) (b : Bound B) (hd : b.dir = .front) (c : Bool)
    (cat : Cat) (args : List (Expr B)) (m : Mem V L) (hok : b.ConstOk c)
    (hidx : ∀ e, args = [e] → idxOf e.base ≠ some 0 ∧ idxOf e.base ≠ some 1)
    (hlt : ∀ e ∈ args, e.addr < m.next) (hx : XvApart args) :
    ∃ fe es m', (∀ (R : Type) (code : Code B V L R), b.call Λ idxOf code c cat args m =
        .invoked (code fe es m').1 ((code fe es m').2.killRange m.next m'.next)) ∧ es.length = b.els.length + args.length ∧
      ∀ (i : Nat) (e : Expr B), args[i]? = some e → ∃ e', es[b.els.length + i]? = some e' ∧
        (e.cat = .lv → e' = e) ∧
        (e.cat = .xv → e'.base = e.base ∧ e'.c = e.c ∧ e'.cat = .lv ∧ e'.addr ≠ e.addr ∧ m'.get e'.addr = m.get e.addr) := by
  obtain ⟨fe, ts, as, m', g, hf, hts, has, hcall⟩ := call_front Λ idxOf b hd c cat args m hok hidx hlt hx
  refine ⟨fe, ts ++ as, m', hcall, by simp [hts.1, has.1], ?_⟩
  intro i e hi
  obtain ⟨e', h1, h2⟩ := has.2 i e hi
  refine ⟨e', ?_, ?_, ?_⟩
  · rw [List.getElem?_append_right (by rw [hts.1]; omega), hts.1, ← h1]
    congr 1
    omega
  · intro h
    simpa only [Captured, h] using h2
  · intro h
    simp only [Captured, h] at h2
    have := hlt e (List.mem_of_getElem? hi)
    exact ⟨h2.1, h2.2.1, h2.2.2.2.1, by omega, h2.2.2.2.2.2.2⟩

/-- **C26** (partial): through `<<`, rvalue arguments reach the callable as rvalues (denoting an object made from the argument). Lvalue
arguments do not reach it as lvalues: they are copied, and reach it as rvalues denoting another object. -/
theorem C26_forwarding_back_partial (Λ : Lang B V) (idxOf : B → Option Nat) (b : Bound B) (hd : b.dir = .back) (c : Bool)
    (cat : Cat) (args : List (Expr B)) (m : Mem V L) (hok : b.ConstOk c) (hr : b.InRange m.next)
    (hidx : ∀ e, args = [e] → idxOf e.base ≠ some 0 ∧ idxOf e.base ≠ some 1)
    (hlt : ∀ e ∈ args, e.addr < m.next) (hx : Apart args) :
    ∃ fe es m', (∀ (R : Type) (code : Code B V L R), b.call Λ idxOf code c cat args m =
        .invoked (code fe es m').1 ((code fe es m').2.killRange m.next m'.next)) ∧ es.length = args.length + b.els.length ∧
      ∀ (i : Nat) (e : Expr B), args[i]? = some e → ∃ e', es[i]? = some e' ∧
        e'.base = e.base ∧ e'.c = false ∧ e'.cat = .xv ∧ e'.addr ≠ e.addr ∧ m'.get e'.addr = m.get e.addr := by
  obtain ⟨fe, ts, as, m', g, hf, hts, has, hcall⟩ := call_back Λ idxOf b hd c cat args m hok hr hidx hlt hx
  refine ⟨fe, as ++ ts, m', hcall, by simp [hts.1, has.1], ?_⟩
  intro i e hi
  obtain ⟨e', h1, h2⟩ := has.2 i e hi
  have := hlt e (List.mem_of_getElem? hi)
  refine ⟨e', ?_, h2.1, h2.2.1, h2.2.2.2.1, by have := h2.2.2.2.2.1; omega, h2.2.2.2.2.2.2⟩
  rw [List.getElem?_append_left (List.getElem?_eq_some_iff.1 h1).1, h1]

/-! ### Examples and refutations -/

/-- `idx_t<0>` is a type here. -/
def exIdx : String → Option Nat := fun b => if b = "idx0" then some 0 else none

/-- A counter: returns its own state, the sum of its arguments and the number of arguments; increments its own state and its first argument. -/
def exCounter : PureFn Nat Unit (Nat × Nat × Nat) := fun s vs w =>
  ((s, vs.sum, vs.length), s + 1, fun i => (vs[i]?.getD 0) + (if i = 0 then 100 else 0), w)

/-- Two bound values and a value of empty type, a callable, three calls. -/
def exCalls (dir : Dir) : Option (List (Option (Nat × Nat × Nat))) :=
  (makeBound exLang (fun _ => false) "T" dir
    [⟨"int", false, false, .lv, 0⟩, ⟨"E", false, false, .xv, 1⟩, ⟨"int", false, false, .xv, 2⟩] ⟨"F", false, false, .xv, 3⟩
    (memOf [5, 0, 6, 40])).map fun r =>
      r.1.runCalls exLang exIdx exCounter.code [(.lv, [("int", 7)]), (.xv, []), (.lv, [("int", 8), ("E", 0)])] r.2

/-- `>>`: own state 40, 41, 42; the first bound value 5, 105, 205. -/
example : exCalls .front = some [some (40, 18, 4), some (41, 111, 3), some (42, 219, 5)] := by decide

/-- `<<`: own state 40, 40, 40. (In the second call the first argument is the first bound value.) -/
example : exCalls .back = some [some (40, 18, 4), some (40, 11, 3), some (40, 119, 5)] := by decide

/-- **C25 is false for `<<`**: a callable with state does not keep it: each call starts from the state it had when bound. -/
theorem C25_own_state_lost : ∃ (pf : PureFn Nat Unit Nat) (b : Bound String) (m : Mem Nat Unit),
    makeBound exLang (fun _ => false) "T" .back [⟨"int", false, false, .lv, 0⟩] ⟨"F", false, false, .lv, 1⟩ (memOf [5, 40]) = some (b, m) ∧
    b.runCalls exLang exIdx pf.code [(.lv, []), (.lv, [])] m = [some 40, some 40] ∧
    callAgain pf true [true] [[], []] 40 [5] () = [40, 41] := by
  refine ⟨fun s vs w => (s, s + 1, fun i => vs[i]?.getD 0, w), _, _, rfl, ?_, ?_⟩ <;> decide

/-- Hypotheses of C22-C25 for the bound values above. -/
example : ∃ b m1, makeBound exLang (fun _ => false) "T" .front
      [⟨"int", false, false, .lv, 0⟩, ⟨"E", false, false, .xv, 1⟩, ⟨"int", false, false, .xv, 2⟩] ⟨"F", false, false, .xv, 3⟩
      (memOf [5, 0, 6, 40]) = some (b, m1) ∧
    ∃ fe ts as m', m'.get fe.addr = 40 ∧ m'.world = () ∧ (ts.map fun e => m'.get e.addr) = [5, 0, 6] ∧
      (as.map fun e => m'.get e.addr) = [m1.get 0, m1.get 1] ∧
      ∀ (R : Type) (code : Code String Nat Unit R),
        b.call exLang exIdx code false .lv [⟨"int", false, false, .lv, 0⟩, ⟨"E", false, false, .xv, 1⟩] m1 =
          .invoked (code fe (ts ++ as) m').1 ((code fe (ts ++ as) m').2.killRange m1.next m'.next) := by
  obtain ⟨b, m1, h1, h2⟩ := C22_bind_front_partial exLang (fun _ => false) exIdx "T"
    [⟨"int", false, false, .lv, 0⟩, ⟨"E", false, false, .xv, 1⟩, ⟨"int", false, false, .xv, 2⟩] ⟨"F", false, false, .xv, 3⟩
    (memOf [5, 0, 6, 40]) (by decide) (by decide) (by decide) (by decide) (by simp) (by decide)
  exact ⟨b, m1, h1, h2 .lv [⟨"int", false, false, .lv, 0⟩, ⟨"E", false, false, .xv, 1⟩] (by simp) (by decide) (by simp [Apart])⟩

/-- The same for `<<`. -/
example : ∃ b m1, makeBound exLang (fun _ => false) "T" .back [⟨"int", false, false, .xv, 0⟩] ⟨"F", true, false, .lv, 1⟩ (memOf [5, 40]) =
      some (b, m1) ∧
    ∃ fe ts as m', m'.get fe.addr = 40 ∧ m'.world = () ∧ (ts.map fun e => m'.get e.addr) = [5] ∧
      (as.map fun e => m'.get e.addr) = [m1.get 1] ∧
      ∀ (R : Type) (code : Code String Nat Unit R),
        b.call exLang exIdx code false .xv [⟨"F", true, false, .lv, 1⟩] m1 =
          .invoked (code fe (as ++ ts) m').1 ((code fe (as ++ ts) m').2.killRange m1.next m'.next) := by
  obtain ⟨b, m1, h1, h2⟩ := C23_bind_back_partial exLang (fun _ => false) exIdx "T"
    [⟨"int", false, false, .xv, 0⟩] ⟨"F", true, false, .lv, 1⟩ (memOf [5, 40]) (by decide) (by decide) (by decide) (by decide) (by simp) (by decide)
  exact ⟨b, m1, h1, h2 .xv [⟨"F", true, false, .lv, 1⟩] (by simp [exIdx]) (by decide) (by simp [Apart])⟩

/-- A lone `idx_t<0>` argument: the callable is not invoked, instead the stored callable itself is returned. -/
example : (makeBound exLang (fun _ => false) "T" .front [⟨"int", false, false, .xv, 0⟩] ⟨"F", false, false, .lv, 1⟩ (memOf [5, 40, 0])).map
    (fun r => match r.1.call exLang exIdx exCounter.code false .lv [⟨"idx0", false, false, .xv, 2⟩] r.2 with
      | .element (.glvalue e) => some e.addr | _ => none) = some (some 1) := by decide

/-- C24: an lvalue-bound argument is seen at its current value, an rvalue-bound one is owned. -/
example : let r := bindBack exLang ⟨"F", false, false, .lv, 0⟩ [⟨"int", false, false, .lv, 1⟩, ⟨"int", false, false, .xv, 2⟩] (memOf [40, 5, 6])
    let show' : Code String Nat Unit (List Nat) := fun callee args m => ((callee :: args).map fun e => m.get e.addr, m)
    ((r.1.call show' [⟨"int", false, false, .lv, 2⟩] ((r.2.write 1 15).write 2 16)).1,
     (r.1.call show' [] ((r.2.write 1 25).write 0 41)).1) = ([40, 16, 15, 6], [41, 25, 6]) := by decide

/-- C26: what the callable sees of an lvalue and an rvalue argument. -/
example : let see : Code String Nat Unit (List (Cat × Bool)) := fun _ args m => (args.map fun e => (e.cat, decide (e.addr < 4)), m)
    let call := fun dir => (makeBound exLang (fun _ => false) "T" dir [] ⟨"F", false, false, .lv, 1⟩ (memOf [5, 40, 0, 0])).map fun r =>
      match r.1.call exLang exIdx see false .lv [⟨"int", false, false, .lv, 2⟩, ⟨"int", false, false, .xv, 3⟩] r.2 with
      | .invoked x _ => x | _ => []
    call .front = some [(.lv, true), (.lv, false)] ∧ call .back = some [(.xv, false), (.xv, false)] := by decide

end Pigro.Cxx
