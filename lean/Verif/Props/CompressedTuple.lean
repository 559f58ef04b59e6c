import Verif.Proofs.TupleRefines
/-!
# C27-C31, C33, C52: compressed_tuple
-/
namespace Pigro.Cxx
variable {B V L : Type} [DecidableEq B]

/-! ### C29 -/

/-- **C29.** For every list of element types (values, lvalue references, const or not, empty or not; for rvalue references see C52), every
construction and every sequence of reads and writes of the sources and of the elements (through lvalues, rvalues, const and
non-const): all observations are those of the specification, in which lvalue reference elements are names of their sources and the others are
variables of their own, initially holding the values of the sources. -/
theorem C29_aliasing (Λ : Lang B V) (ts : List (Ty B)) (es : List (Expr B)) (m m' : Mem V L)
    (els : List (Elem B)) (hlt : ∀ e ∈ es, e.addr < m.next) (hr : ∀ t ∈ ts, t.ref ≠ .rref)
    (h : construct Λ ts es m = some (els, m')) (ops : List (Op V)) (hops : ∀ op ∈ ops, op.ok m.next) :
    runReal Λ els m' ops =
      runSpec Λ ts es ⟨m.get, fun i => match es[i]? with | some e => m.get e.addr | none => m.get 0⟩ ops := by
  obtain ⟨h1, h2, h3, h4, h5, h6, -⟩ := construct_spec Λ ts es m m' els hlt
    (fun i j t t' e e' _ ht _ hrr => absurd hrr (hr t (List.mem_of_getElem? ht))) h
  have hrel : Rel Λ ts els m.next m' ⟨m.get, fun i => match es[i]? with | some e => m.get e.addr | none => m.get 0⟩ := by
    refine ⟨?_, ?_⟩
    · intro a ha
      exact h4 a ha fun i t e ht _ hrr => absurd hrr (hr t (List.mem_of_getElem? ht))
    · intro i t a ht hel hE hnr
      have hi : i < es.length := by have := (List.getElem?_eq_some_iff.1 ht).1; omega
      obtain ⟨el, k1, -, k3⟩ := h5 i t es[i] ht (by simp [hi])
      simp only [hE, hnr, Bool.false_eq_true, if_false] at k3
      obtain ⟨a', rfl, -, -, l4⟩ := k3
      rw [hel] at k1
      simp only [Option.some.injEq, Elem.stored.injEq, true_and] at k1
      simp only [k1, l4, List.getElem?_eq_getElem hi]
  generalize (⟨m.get, fun i => match es[i]? with | some e => m.get e.addr | none => m.get 0⟩ : Vars V) = s at hrel
  clear h h3 h4
  have key : ∀ (ops : List (Op V)) (mc : Mem V L) (s : Vars V), (∀ op ∈ ops, op.ok m.next) →
      Rel Λ ts els m.next mc s → runReal Λ els mc ops = runSpec Λ ts es s ops := by
    intro ops
    induction ops with
    | nil => intro mc s _ _; rfl
    | cons op ops ih =>
      intro mc s hops hrel
      obtain ⟨k1, k2⟩ := useReal_useSpec Λ ts es els m m' hlt h1 h2 h5 h6 mc s hrel op (hops op (by simp))
      simp only [runReal, runSpec, k1]
      rw [ih _ _ (fun o ho => hops o (by simp [ho])) k2]
  exact key ops m' s hops hrel

/-- Memory with the given values at addresses 0, 1, ... -/
def memOf (xs : List Nat) : Mem Nat Unit := ⟨fun a => xs.getD a 0, fun a => decide (a < xs.length), xs.length, (), []⟩

/-- Types for examples: `"E"` is empty. -/
def exLang : Lang String Nat := ⟨(· == "E"), fun _ => 0, fun _ => 99, fun _ => 7⟩

/-- `compressed_tuple<int &, E, int>{x, e, x}` with `x == 5`: after `x = 6` the reference reads 6, the value 5; after writing 8 through the
reference `x` is 8. -/
example :
    let x : Expr String := ⟨"int", false, false, .lv, 0⟩
    let e : Expr String := ⟨"E", false, false, .lv, 1⟩
    let ts : List (Ty String) := [⟨"int", false, false, .lref⟩, ⟨"E", false, false, .none⟩, ⟨"int", false, false, .none⟩]
    (construct exLang ts [x, e, x] (memOf [5, 0])).map (fun r => runReal exLang r.1 r.2
      [.writeSrc 0 6, .readElem false .lv 0, .readElem true .lv 2, .readElem false .lv 1, .writeElem false .lv 0 8, .readSrc 0,
       .writeElem true .lv 0 9, .readElem true .xv 0]) =
    some [.done, .val 6, .val 5, .val 0, .done, .val 8, .rejected, .val 8] := by
  decide

/-! ### C27 -/

/-- **C27** for any element types: right after construction, `get<i>` (of the tuple as lvalue or rvalue; const if the element is not volatile)
reads the value element `i` was given; beyond the end it is not viable. -/
theorem C27_get_constructed (Λ : Lang B V) (ts : List (Ty B)) (es : List (Expr B)) (m m' : Mem V L)
    (els : List (Elem B)) (hlt : ∀ e ∈ es, e.addr < m.next) (hr : ∀ t ∈ ts, t.ref ≠ .rref)
    (hE : ∀ e ∈ es, Λ.isEmpty e.base = true → m.get e.addr = Λ.emptyVal e.base)
    (h : construct Λ ts es m = some (els, m')) (c : Bool) (cat : Cat) (i : Nat) :
    (∀ t e, ts[i]? = some t → es[i]? = some e → (c = true → t.v = true → Λ.isEmpty t.base = true) →
      (useReal Λ els m' (.readElem c cat i)).1 = .val (m.get e.addr)) ∧
    (ts.length ≤ i → get els c cat i = .notViable) := by
  have hc := construct_spec Λ ts es m m' els hlt
    (fun i j t t' e e' _ ht _ hrr => absurd hrr (hr t (List.mem_of_getElem? ht))) h
  constructor
  · intro t e ht he hv
    have := C29_aliasing Λ ts es m m' els hlt hr h [.readElem c cat i] (by simp [Op.ok])
    simp only [runReal, runSpec, List.cons.injEq, and_true] at this
    rw [this]
    obtain ⟨el, -, hbase, -⟩ := hc.2.2.2.2.1 i t e ht he
    simp only [useSpec, ht, he]
    cases hEt : Λ.isEmpty t.base
    · have : (c && t.v) = false := by
        cases c <;> cases htv : t.v <;> simp_all
      simp only [this, Bool.false_eq_true, if_false]
      split <;> rfl
    · rw [← hbase] at hEt
      simp [hE e (List.mem_of_getElem? he) hEt, hbase]
  · intro hi
    have : els[i]? = none := by
      rw [List.getElem?_eq_none_iff]; have := hc.2.1; omega
    rw [get_eq, this]; rfl

/-- **C27** (partial: not for a lone `compressed_tuple`). `compressed_tuple{v...}` is well-formed, and `get<i>` of it, however it is
qualified, reads the value of the `i`-th argument. -/
theorem C27_get_partial (Λ : Lang B V) (isCT : B → Bool) (es : List (Expr B)) (m : Mem V L)
    (hlt : ∀ e ∈ es, e.addr < m.next)
    (hE : ∀ e ∈ es, Λ.isEmpty e.base = true → m.get e.addr = Λ.emptyVal e.base)
    (hlone : ∀ e, es = [e] → isCT e.base = false) :
    ∃ ts els m', ctad isCT es = some ts ∧ construct Λ ts es m = some (els, m') ∧
      ∀ (c : Bool) (cat : Cat) (i : Nat),
        (∀ e, es[i]? = some e → (useReal Λ els m' (.readElem c cat i)).1 = .val (m.get e.addr)) ∧
        (es.length ≤ i → get els c cat i = .notViable) := by
  have hts : ctad isCT es = some (es.map fun e => e.type.removeCvref) := by
    rcases es with _ | ⟨e, _ | ⟨e', es⟩⟩
    · rfl
    · simp [ctad, hlone e rfl]
    · rfl
  have htot := construct_total Λ (es.map fun e => e.type.removeCvref) es m (by simp) (by
    intro i t e ht he
    rw [List.getElem?_map, he] at ht
    simp only [Option.map_some, Option.some.injEq] at ht
    subst ht
    exact ⟨rfl, fun h => absurd rfl h⟩)
  obtain ⟨⟨els, m'⟩, hc⟩ := Option.isSome_iff_exists.1 htot
  refine ⟨_, els, m', hts, hc, ?_⟩
  intro c cat i
  have := C27_get_constructed Λ _ es m m' els hlt (by
    intro t ht
    obtain ⟨e, -, rfl⟩ := List.mem_map.1 ht
    simp [Ty.removeCvref, Ty.removeReference, Ty.removeCv]) hE hc c cat i
  refine ⟨?_, fun hi => this.2 (by simpa using hi)⟩
  intro e he
  refine this.1 e.type.removeCvref e (by simp [he]) he ?_
  intro _ hv
  simp [Ty.removeCvref, Ty.removeReference, Ty.removeCv] at hv

omit [DecidableEq B] in
/-- **C27 is false** for a lone `compressed_tuple`: no element type is deduced for it, the result is (at best) a copy. -/
theorem C27_lone_compressed_tuple (isCT : B → Bool) (e : Expr B) (h : isCT e.base = true) :
    ctad isCT [e] = none := by simp [ctad, h]

example : let x : Expr String := ⟨"int", true, false, .lv, 0⟩
    let e : Expr String := ⟨"E", false, false, .xv, 1⟩
    let y : Expr String := ⟨"int", false, false, .xv, 2⟩
    ∃ ts els m', ctad (fun _ => false) [x, e, y] = some ts ∧
      construct exLang ts [x, e, y] (memOf [5, 0, 6]) = some (els, m') ∧
      (useReal exLang els m' (.readElem true .xv 2)).1 = .val 6 := by
  intro x e y
  obtain ⟨ts, els, m', h1, h2, h3⟩ := C27_get_partial exLang (fun _ => false) [x, e, y] (memOf [5, 0, 6])
    (by decide) (by decide) (by simp)
  exact ⟨ts, els, m', h1, h2, (h3 true .xv 2).1 y rfl⟩

omit [DecidableEq B] in
/-- **C27**: `compressed_tuple<Ts...>()` holds default values. -/
theorem C27_default_length (Λ : Lang B V) (ts : List (Ty B)) (m : Mem V L) :
    (constructDefault Λ ts m).1.length = ts.length := by
  have : ∀ (es : List (Expr B)) (m : Mem V L), (mkElems Λ es m).1.length = es.length := by
    intro es
    induction es with
    | nil => intro m; rfl
    | cons e es ih => intro m; simp [mkElems, ih]
  simp [constructDefault, makeBase_eq, this]

/-! ### C28 -/

/-- **C28.** In any state of memory: a write through `get<i>` of a non-const tuple is accepted unless the element type is const; it changes what `get<i>`
reads to the written value, and leaves what every other element reads, unless that is a reference to the same object. -/
theorem C28_write_access (Λ : Lang B V) (ts : List (Ty B)) (es : List (Expr B)) (m m' : Mem V L)
    (els : List (Elem B)) (hlt : ∀ e ∈ es, e.addr < m.next) (hr : SourcesApart ts es)
    (h : construct Λ ts es m = some (els, m')) (i : Nat) (t : Ty B) (e : Expr B)
    (ht : ts[i]? = some t) (he : es[i]? = some e) (hE : Λ.isEmpty t.base = false) (hc : t.c = false)
    (mc : Mem V L) (cat : Cat) (x : V) :
    let r := useReal Λ els mc (.writeElem false cat i x)
    r.1 = .done ∧ (∀ cat', (useReal Λ els r.2 (.readElem false cat' i)).1 = .val x) ∧
    ∀ (j : Nat) (t' : Ty B) (e' : Expr B) (c : Bool) (cat' : Cat), ts[j]? = some t' → es[j]? = some e' → j ≠ i →
      (t.ref = .lref → t'.ref = .lref → e'.addr ≠ e.addr) →
      (useReal Λ els r.2 (.readElem c cat' j)).1 = (useReal Λ els mc (.readElem c cat' j)).1 := by
  obtain ⟨h1, h2, h3, h4, h5, h6, -⟩ := construct_spec Λ ts es m m' els hlt hr h
  -- the object an element denotes
  have hobj : ∀ (i : Nat) (t : Ty B) (e : Expr B), ts[i]? = some t → es[i]? = some e → Λ.isEmpty t.base = false →
      ∃ ty a, els[i]? = some (.stored ty a) ∧ ty.c = t.c ∧ ((t.ref = .lref ∧ a = e.addr) ∨
        (t.ref ≠ .lref ∧ (Elem.stored ty a).owned = some a ∧ m.next ≤ a)) := by
    intro i t e ht he hE
    obtain ⟨el, k1, -, k3⟩ := h5 i t e ht he
    simp only [hE, Bool.false_eq_true, if_false] at k3
    split at k3
    · rename_i hl
      exact ⟨t, e.addr, by rw [k1]; exact congrArg some k3.1, rfl, .inl ⟨hl, rfl⟩⟩
    · rename_i hl
      obtain ⟨a, l1, l2, -⟩ := k3
      exact ⟨⟨t.base, t.c, t.v, .none⟩, a, by rw [k1, l1], rfl, .inr ⟨hl, rfl, l2⟩⟩
  obtain ⟨ty, a, g1, g2, g3⟩ := hobj i t e ht he hE
  have hget : ∀ (cat : Cat) , get els false cat i = .glvalue (access ty a false cat) := by
    intro cat; rw [get_eq, g1]; rfl
  have ha := fun cat => (access_base ty a false cat).2.1
  have hac := fun cat => (access_cat ty a cat).1
  intro r
  have hrr : r = (.done, mc.write a x) := by
    simp only [r, useReal, hget, hac, g2, hc, ha, Bool.false_eq_true, if_false]
  rw [hrr]
  refine ⟨rfl, ?_, ?_⟩
  · intro cat'
    simp [useReal, hget, ha, Mem.write]
  · intro j t' e' c cat' ht' he' hji halias
    cases hE' : Λ.isEmpty t'.base
    · obtain ⟨ty', b, k1, -, k3⟩ := hobj j t' e' ht' he' hE'
      have hab : b ≠ a := by
        have hle := hlt e (List.mem_of_getElem? he)
        have hle' := hlt e' (List.mem_of_getElem? he')
        rcases g3 with ⟨p1, p2⟩ | ⟨p1, p2, p3⟩ <;> rcases k3 with ⟨q1, q2⟩ | ⟨q1, q2, q3⟩
        · rw [p2, q2]; exact halias p1 q1
        · omega
        · omega
        · rw [List.pairwise_iff_getElem] at h6
          obtain ⟨hi1, hi2⟩ := List.getElem?_eq_some_iff.1 g1
          obtain ⟨hj1, hj2⟩ := List.getElem?_eq_some_iff.1 k1
          rcases Nat.lt_or_gt_of_ne hji with hlt' | hlt'
          · have := h6 j i hj1 hi1 hlt' b a (by rw [hj2]; exact q2) (by rw [hi2]; exact p2)
            omega
          · have := h6 i j hi1 hj1 hlt' a b (by rw [hi2]; exact p2) (by rw [hj2]; exact q2)
            omega
      simp only [useReal, get_eq, k1, getSpec]
      have hb := fun c' cat' => (access_base ty' b c' cat').2.1
      cases c
      · simp [hb, Mem.write, hab]
      · cases hv : (access ty' b false cat').v <;> simp [hb, Mem.write, hab]
    · obtain ⟨el, k1, -, k3⟩ := h5 j t' e' ht' he'
      simp only [hE', if_true] at k3
      simp [useReal, get_eq, k1, k3, getSpec]

example :
    let x : Expr String := ⟨"int", false, false, .lv, 0⟩
    let ts : List (Ty String) := [⟨"int", false, false, .lref⟩, ⟨"int", false, false, .none⟩, ⟨"int", false, false, .none⟩]
    (construct exLang ts [x, x, x] (memOf [5])).map (fun r => runReal exLang r.1 r.2
      [.writeElem false .xv 1 6, .readElem false .lv 0, .readElem false .lv 1, .readElem true .lv 2]) =
    some [.done, .val 5, .val 6, .val 5] := by
  decide

/-! ### C31 -/

omit [DecidableEq B] in
/-- **C31.** Through a const tuple, `get<i>` yields a const expression or a new object, whatever the element; in particular no use of a const tuple
changes memory. -/
theorem C31_deep_const [DecidableEq B] (Λ : Lang B V) (els : List (Elem B)) (cat : Cat) (i : Nat) (m : Mem V L) :
    (∀ e, get els true cat i = .glvalue e → e.c = true) ∧
    ∀ x, (useReal Λ els m (.writeElem true cat i x)).2 = m := by
  have key : ∀ e, get els true cat i = .glvalue e → e.c = true := by
    intro e h
    rw [get_eq] at h
    rcases hel : els[i]? with _ | ⟨b | ⟨ty, a⟩⟩
    · simp [hel, getSpec] at h
    · simp [hel, getSpec] at h
    · simp only [hel, getSpec, if_true] at h
      split at h
      · simp at h
      · simp only [Got.glvalue.injEq] at h
        rw [← h]
  refine ⟨key, fun x => ?_⟩
  simp only [useReal]
  rcases h : get els true cat i with _ | _ | e | b
  · rfl
  · rfl
  · simp [key e h]
  · rfl

/-- A reference to a non-const `int` in a const tuple is `const int &`; in a const rvalue `const int &&`. -/
example : get [Elem.stored (⟨"int", false, false, .lref⟩ : Ty String) 3] true .lv 0 = .glvalue ⟨"int", true, false, .lv, 3⟩ ∧
    get [Elem.stored (⟨"int", false, false, .lref⟩ : Ty String) 3] true .xv 0 = .glvalue ⟨"int", true, false, .xv, 3⟩ := by
  decide

/-! ### C30 -/

/-- The type of an access. -/
def Got.type : Got B → Option (Ty B)
  | .glvalue e => some e.type
  | .prvalue b => some ⟨b, false, false, .none⟩
  | _ => none

/-- The type of `std::get` for an element of type `t` of a `std::tuple` used as a (const) lvalue or xvalue: value elements take on
the qualification of the tuple; references stay what they are, except that an rvalue reference in an lvalue tuple is an
lvalue. -/
def stdGetType (t : Ty B) (c : Bool) (cat : Cat) : Ty B :=
  match t.ref, cat with
  | .none, .lv => ⟨t.base, t.c || c, t.v, .lref⟩
  | .none, .xv => ⟨t.base, t.c || c, t.v, .rref⟩
  | .lref, _ => t
  | .rref, .lv => ⟨t.base, t.c, t.v, .lref⟩
  | .rref, .xv => t

/-- When the two agree. -/
def TypesAgree (t : Ty B) (c : Bool) (cat : Cat) : Prop :=
  c = false ∨ (t.v = false ∧ (t.ref = .none ∨ (t.c = true ∧ (t.ref = .lref → cat = .lv))))

omit [DecidableEq B] in
/-- The element made for a type. -/
theorem construct_elem [DecidableEq B] (Λ : Lang B V) (ts : List (Ty B)) (es : List (Expr B)) (m m' : Mem V L)
    (els : List (Elem B)) (h : construct Λ ts es m = some (els, m')) (i : Nat) (t : Ty B) (ht : ts[i]? = some t) :
    if Λ.isEmpty t.base then els[i]? = some (.empty t.base)
    else ∃ a, els[i]? = some (.stored ⟨t.base, t.c, t.v, if t.ref = .lref then .lref else .none⟩ a) := by
  simp only [construct, Option.map_eq_some_iff] at h
  obtain ⟨⟨es', m1⟩, hc, hm⟩ := h
  have hcast : ∀ (ts : List (Ty B)) (es : List (Expr B)) (m : Mem V L) (es' : List (Expr B)) (m' : Mem V L),
      castArgs Λ ts es m = some (es', m') → ∀ (i : Nat) (t : Ty B), ts[i]? = some t →
      ∃ e', es'[i]? = some e' ∧ e'.base = t.base ∧ e'.c = t.c ∧ e'.v = t.v ∧ (e'.cat = .lv ↔ t.ref = .lref) := by
    intro ts
    induction ts with
    | nil => intro es m es' m' _ i t ht; simp at ht
    | cons t ts ih =>
      intro es m es' m' h i t' ht'
      cases es with
      | nil => simp [castArgs] at h
      | cons e es =>
        simp only [castArgs] at h
        rcases hc : castArg Λ t e m with _ | ⟨x, m1⟩
        · simp [hc] at h
        rcases hcs : castArgs Λ ts es m1 with _ | ⟨xs, m2⟩
        · simp [hc, hcs] at h
        simp only [hc, hcs, Option.some.injEq, Prod.mk.injEq] at h
        obtain ⟨rfl, rfl⟩ := h
        cases i with
        | zero =>
          simp only [List.getElem?_cons_zero, Option.some.injEq] at ht'
          subst ht'
          refine ⟨x, by simp, ?_⟩
          rcases t with ⟨b, c, v, rf⟩
          cases rf <;> simp only [castArg] at hc <;> split at hc <;>
            simp only [Option.some.injEq, Prod.mk.injEq, reduceCtorEq] at hc <;>
            obtain ⟨rfl, -⟩ := hc <;> simp [Expr.ofRef]
        | succ i =>
          simp only [List.getElem?_cons_succ] at ht' ⊢
          exact ih es m1 xs m2 hcs i t' ht'
  have hmk : ∀ (es : List (Expr B)) (m : Mem V L) (i : Nat) (e : Expr B), es[i]? = some e →
      if Λ.isEmpty e.base then (mkElems Λ es m).1[i]? = some (.empty e.base)
      else ∃ a, (mkElems Λ es m).1[i]? = some (.stored ⟨e.base, e.c, e.v, if e.cat = .lv then .lref else .none⟩ a) := by
    intro es
    induction es with
    | nil => intro m i e h; simp at h
    | cons e es ih =>
      intro m i e' h
      cases i with
      | zero =>
        simp only [List.getElem?_cons_zero, Option.some.injEq] at h
        subst h
        rcases e with ⟨b, c, v, cat, a⟩
        cases hE : Λ.isEmpty b <;> cases cat <;>
          simp [mkElems, compressedTupleElement, Lang.emptyTy, Expr.type, Ty.removeCvref, Ty.removeReference,
            Ty.removeCv, hE, fwdCapture, deduceFwd]
      | succ i =>
        simp only [List.getElem?_cons_succ] at h
        simp only [mkElems, List.getElem?_cons_succ]
        exact ih _ i e' h
  obtain ⟨e', k1, k2, k3, k4, k5⟩ := hcast ts es m es' m1 hc i t ht
  have := hmk es' m1 i e' k1
  rw [← makeBase_eq, hm, k2, k3, k4] at this
  simpa [k5] using this

/-- **C30** (partial: for which elements and tuples it holds is stated exactly). For a non-empty element the type of `get<i>` is that of `std::get<i>` of the
corresponding `std::tuple` if and only if the tuple is not const, or the element is a non-volatile value, or a reference to
const (an lvalue reference only in an lvalue tuple). -/
theorem C30_get_type_partial (Λ : Lang B V) (ts : List (Ty B)) (es : List (Expr B)) (m m' : Mem V L)
    (els : List (Elem B)) (h : construct Λ ts es m = some (els, m')) (i : Nat) (t : Ty B)
    (ht : ts[i]? = some t) (hE : Λ.isEmpty t.base = false) (c : Bool) (cat : Cat) :
    (get els c cat i).type = some (stdGetType t c cat) ↔ TypesAgree t c cat := by
  have := construct_elem Λ ts es m m' els h i t ht
  simp only [hE, Bool.false_eq_true, if_false] at this
  obtain ⟨a, ha⟩ := this
  rw [get_eq, ha]
  rcases t with ⟨b, tc, tv, tr⟩
  cases tc <;> cases tv <;> cases tr <;> cases c <;> cases cat <;>
    simp [getSpec, access, Got.type, stdGetType, TypesAgree, Expr.type, Expr.ofRef, Ty.addLref, Ty.addRref]

/-- **C30 is false** for every empty element: the result is a new object, not a reference. -/
theorem C30_empty_differs (Λ : Lang B V) (ts : List (Ty B)) (es : List (Expr B)) (m m' : Mem V L)
    (els : List (Elem B)) (h : construct Λ ts es m = some (els, m')) (i : Nat) (t : Ty B)
    (ht : ts[i]? = some t) (hE : Λ.isEmpty t.base = true) (c : Bool) (cat : Cat) :
    (get els c cat i).type = some ⟨t.base, false, false, .none⟩ ∧
    (get els c cat i).type ≠ some (stdGetType t c cat) := by
  have := construct_elem Λ ts es m m' els h i t ht
  simp only [hE, if_true] at this
  rw [get_eq, this]
  refine ⟨rfl, ?_⟩
  rcases t with ⟨b, tc, tv, tr⟩
  cases tr <;> cases cat <;> simp [getSpec, Got.type, stdGetType]

/-- A value, a reference in an lvalue, and (they differ) a reference in a const lvalue. -/
example : TypesAgree (⟨"int", false, false, .none⟩ : Ty String) true .xv ∧
    TypesAgree (⟨"int", false, false, .lref⟩ : Ty String) false .lv ∧
    ¬ TypesAgree (⟨"int", false, false, .lref⟩ : Ty String) true .lv := by
  simp [TypesAgree]

/-! ### C33 -/

omit [DecidableEq B] in
/-- **C33.** `tuple_size` is the number of types, for every qualification; `tuple_element` is the element type, with const and volatile added (to a
non-reference) if the tuple type itself is const or volatile, as for `std::tuple`; references to tuples are looked through. Beyond the end
there is none. -/
theorem C33_traits (ts : List (Ty B)) (q : Ty Unit) (i : Nat) :
    tupleSize ts q = some ts.length ∧
    (ts.length ≤ i → tupleElement ts q i = none) ∧
    ∀ t, ts[i]? = some t → ∃ r, tupleElement ts q i = some r ∧ r.base = t.base ∧ r.ref = t.ref ∧
      (r.c = true ↔ t.c = true ∨ (q.c = true ∧ q.ref = .none ∧ t.ref = .none)) ∧
      (r.v = true ↔ t.v = true ∨ (q.v = true ∧ q.ref = .none ∧ t.ref = .none)) := by
  have hspec : tupleSpec q = .pick (match q.isConst, q.isVolatile with
      | false, false => .header | true, false => .const | false, true => .volatile | true, true => .constVolatile) := by
    rcases q with ⟨u, c, v, r⟩
    cases c <;> cases v <;> cases r <;> rfl
  refine ⟨by simp [tupleSize, hspec], ?_, ?_⟩
  · intro hi
    have : ts[i]? = none := by rw [List.getElem?_eq_none_iff]; exact hi
    simp only [tupleElement, hspec, this]
    cases q.isConst <;> cases q.isVolatile <;> rfl
  · intro t ht
    rcases q with ⟨u, c, v, r⟩
    rcases t with ⟨b, tc, tv, tr⟩
    simp only [tupleElement, hspec, ht]
    cases c <;> cases v <;> cases r <;> cases tr <;>
      exact ⟨_, rfl, by simp [Ty.addConst, Ty.addVolatile]⟩

/-- **C33**, consistency: `get<i>` of a constructed tuple is viable iff `i` is less than `tuple_size`, and for a non-empty element of a non-const
lvalue its type is a reference to `tuple_element`. -/
theorem C33_consistent (Λ : Lang B V) (ts : List (Ty B)) (es : List (Expr B)) (m m' : Mem V L)
    (els : List (Elem B)) (h : construct Λ ts es m = some (els, m')) (q : Ty Unit) (i : Nat) :
    (∀ c cat, get els c cat i ≠ .notViable ↔ ∃ n, tupleSize ts q = some n ∧ i < n) ∧
    ∀ t, tupleElement ts ⟨(), false, false, q.ref⟩ i = some t → Λ.isEmpty t.base = false →
      (get els false .lv i).type = some t.addLref := by
  have hlen : ∀ c cat, get els c cat i ≠ .notViable ↔ i < ts.length := by
    intro c cat
    by_cases hi : i < ts.length
    · have := construct_elem Λ ts es m m' els h i ts[i] (by simp [hi])
      simp only [hi, iff_true, get_eq]
      split at this
      · simp [this, getSpec]
      · obtain ⟨a, ha⟩ := this
        rw [ha]
        simp only [getSpec]
        cases c
        · simp
        · cases (access _ a false cat).v <;> simp
    · simp only [hi, iff_false, get_eq]
      have hel : els.length = ts.length := by
        simp only [construct, Option.map_eq_some_iff] at h
        obtain ⟨⟨es', m1⟩, hc, hm⟩ := h
        have h1 : ∀ (es : List (Expr B)) (m : Mem V L), (mkElems Λ es m).1.length = es.length := by
          intro es
          induction es with
          | nil => intro m; rfl
          | cons e es ih => intro m; simp [mkElems, ih]
        have h2 : ∀ (ts : List (Ty B)) (es : List (Expr B)) (m : Mem V L) (es' : List (Expr B)) (m' : Mem V L),
            castArgs Λ ts es m = some (es', m') → es'.length = ts.length := by
          intro ts
          induction ts with
          | nil =>
            intro es m es' m' h
            cases es <;> simp [castArgs] at h
            obtain ⟨rfl, -⟩ := h; rfl
          | cons t ts ih =>
            intro es m es' m' h
            cases es with
            | nil => simp [castArgs] at h
            | cons e es =>
              simp only [castArgs] at h
              rcases hc : castArg Λ t e m with _ | ⟨x, m1⟩
              · simp [hc] at h
              rcases hcs : castArgs Λ ts es m1 with _ | ⟨xs, m2⟩
              · simp [hc, hcs] at h
              simp only [hc, hcs, Option.some.injEq, Prod.mk.injEq] at h
              obtain ⟨rfl, rfl⟩ := h
              simp [ih es m1 xs m2 hcs]
        have := h1 es' m1
        rw [← makeBase_eq, hm] at this
        rw [this, h2 ts es m es' m1 hc]
      have : els[i]? = none := by rw [List.getElem?_eq_none_iff]; omega
      simp [this, getSpec]
  refine ⟨?_, ?_⟩
  · intro c cat
    rw [hlen]
    simp [(C33_traits ts q i).1]
  · intro t ht hE
    have hts : ts[i]? = some t := by
      rcases q with ⟨u, c, v, r⟩
      cases r <;> exact ht
    rw [(C30_get_type_partial Λ ts es m m' els h i t hts hE false .lv).2 (.inl rfl)]
    rcases t with ⟨b, tc, tv, tr⟩
    cases tr <;> simp [stdGetType, Ty.addLref]

/-- `std::tuple_element_t<0, const compressed_tuple<int, int &>>` is `const int`, `<1, ...>` is `int &`, and of a reference to it `int`. -/
example : tupleElement [(⟨"int", false, false, .none⟩ : Ty String), ⟨"int", false, false, .lref⟩] ⟨(), true, false, .none⟩ 0 =
      some ⟨"int", true, false, .none⟩ ∧
    tupleElement [(⟨"int", false, false, .none⟩ : Ty String), ⟨"int", false, false, .lref⟩] ⟨(), true, false, .none⟩ 1 =
      some ⟨"int", false, false, .lref⟩ ∧
    tupleElement [(⟨"int", false, false, .none⟩ : Ty String)] ⟨(), true, false, .lref⟩ 0 = some ⟨"int", false, false, .none⟩ := by
  decide

/-! ### C52 -/

/-- **C52.** An element of type `X &&` becomes an object of its own that takes over the value of its source; a non-const source is left moved-from (if the
type is not empty). Later writes to the source are not seen through the tuple, nor the converse. -/
theorem C52_rvalue_reference_owned (Λ : Lang B V) (ts : List (Ty B)) (es : List (Expr B)) (m m' : Mem V L)
    (els : List (Elem B)) (hlt : ∀ e ∈ es, e.addr < m.next) (hr : SourcesApart ts es)
    (h : construct Λ ts es m = some (els, m')) (i : Nat) (t : Ty B) (e : Expr B)
    (ht : ts[i]? = some t) (he : es[i]? = some e) (hrr : t.ref = .rref) (hE : Λ.isEmpty t.base = false)
    (cat : Cat) :
    (useReal Λ els m' (.readElem false cat i)).1 = .val (m.get e.addr) ∧
    (t.c = false → m'.get e.addr = Λ.moved (m.get e.addr)) ∧
    (∀ (mc : Mem V L) (x : V), (useReal Λ els (mc.write e.addr x) (.readElem false cat i)).1 =
      (useReal Λ els mc (.readElem false cat i)).1) ∧
    (∀ (mc : Mem V L) (x : V), (useReal Λ els mc (.writeElem false cat i x)).2.get e.addr = mc.get e.addr) := by
  obtain ⟨h1, h2, h3, h4, h5, h6, h7⟩ := construct_spec Λ ts es m m' els hlt hr h
  obtain ⟨el, k1, -, k3⟩ := h5 i t e ht he
  have hle := hlt e (List.mem_of_getElem? he)
  simp only [hE, hrr, Bool.false_eq_true, if_false, reduceCtorEq] at k3
  obtain ⟨a, rfl, l2, l3, l4⟩ := k3
  have hget : get els false cat i = .glvalue (access ⟨t.base, t.c, t.v, .none⟩ a false cat) := by
    rw [get_eq, k1]; rfl
  have ha := (access_base (⟨t.base, t.c, t.v, .none⟩ : Ty B) a false cat).2.1
  have hne : a ≠ e.addr := by omega
  refine ⟨by simp [useReal, hget, ha, l4], fun hc => h7 i t e ht he hrr hc hE, ?_, ?_⟩
  · intro mc x
    simp [useReal, hget, ha, Mem.write, hne]
  · intro mc x
    simp only [useReal, hget]
    split
    · rfl
    · simp [ha, Mem.write, hne.symm]

example :
    let x : Expr String := ⟨"int", false, false, .lv, 0⟩
    (construct exLang [(⟨"int", false, false, .rref⟩ : Ty String)] [x] (memOf [5])).map (fun r => runReal exLang r.1 r.2
      [.readElem false .lv 0, .readSrc 0, .writeSrc 0 6, .readElem false .lv 0]) =
    some [.val 5, .val 99, .done, .val 5] := by
  decide

end Pigro.Cxx
