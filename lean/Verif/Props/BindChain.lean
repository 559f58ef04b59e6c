import Verif.Proofs.BindArgs
import Verif.Proofs.BindChain
import Verif.Props.Bind
/-!
# C105: bound callables bound again
-/
namespace Pigro.Cxx
variable {V L R : Type}

/-- **C105.** Layers of `>>` and `<<` around a function, in any order, as many as one likes: the function is called with the values bound by `>>` (those of inner layers first), the arguments,
and the values bound by `<<` (those of inner layers last), in each of any number of calls; and `Chain.plain` says which changes to own state and bound values are still there in the next call: with a single `<<`, those of the values bound by it;
with two or more of them none at all. -/
theorem C105_layers_partial (pf : PureFn V L R) (c : Chain V) (calls : List (List V)) (w : L) : c.calls pf calls w = c.plain.calls pf calls w :=
  calls_plain pf calls c w

/-- Without `<<`, all changes are kept. -/
theorem plain_ideal : ∀ (c : Chain V), c.hasBack = false → c.plain = c.ideal
  | .fn _, _ => rfl
  | .bind .front keep vs inner, h => by
    have hi : inner.hasBack = false := h
    simp only [Chain.plain, Chain.ideal, plain_ideal inner hi, hi]
    simp [only]
  | .bind .back _ _ _, h => by simp [Chain.hasBack] at h

/-- **C105** for `>>`: what one would expect. -/
theorem C105_front (pf : PureFn V L R) (c : Chain V) (h : c.hasBack = false) (calls : List (List V)) (w : L) : c.calls pf calls w = c.ideal.calls pf calls w := by
  rw [calls_plain, plain_ideal c h]

/-- The values bound, and the function, are the same in both. -/
theorem plain_values : ∀ (c : Chain V), c.plain.s = c.ideal.s ∧ c.plain.fs.map (·.1) = c.ideal.fs.map (·.1) ∧ c.plain.bs.map (·.1) = c.ideal.bs.map (·.1)
  | .fn _ => ⟨rfl, rfl, rfl⟩
  | .bind .front keep vs inner => by
    obtain ⟨h1, h2, h3⟩ := plain_values inner
    simp only [Chain.plain, Chain.ideal, List.map_append, only_values, h1, h2, h3]
    exact ⟨trivial, trivial, trivial⟩
  | .bind .back keep vs inner => by
    obtain ⟨h1, h2, h3⟩ := plain_values inner
    simp only [Chain.plain, Chain.ideal, List.map_append, only_values, h1, h2, h3]
    exact ⟨trivial, trivial, trivial⟩

/-- **C105**, the first call, for all layers. -/
theorem C105_first_call (pf : PureFn V L R) (c : Chain V) (args : List V) (w : L) : c.calls pf [args] w = c.ideal.calls pf [args] w := by
  obtain ⟨h1, h2, h3⟩ := plain_values c
  simp only [calls_plain, Plain.calls, h1, h2, h3]

theorem changed_same {pf : PureFn V L R} (h : Unchanging pf) (p : Plain V) (args : List V) (w : L) :
    let r := pf p.s (p.fs.map (·.1) ++ args ++ p.bs.map (·.1)) w
    p.changed r.2.1 r.2.2.1 args.length = p := by
  intro r
  obtain ⟨h1, h2⟩ := h p.s (p.fs.map (·.1) ++ args ++ p.bs.map (·.1)) w
  have e1 : after r.2.2.1 0 p.fs = p.fs := by
    refine after_same _ _ _ fun i q hq => ?_
    refine h2 (0 + i) q.1 ?_
    have hi : i < p.fs.length := (List.getElem?_eq_some_iff.1 hq).1
    rw [Nat.zero_add, List.append_assoc, List.getElem?_append_left (by simpa using hi), List.getElem?_map, hq]
    rfl
  have e2 : after r.2.2.1 (p.fs.length + args.length) p.bs = p.bs := by
    refine after_same _ _ _ fun i q hq => ?_
    refine h2 _ q.1 ?_
    rw [List.getElem?_append_right (by simp), List.getElem?_map]
    simp [hq]
  rw [changed_eq, e1, e2, show r.2.1 = p.s from h1]
  cases p
  simp

/-- **C105** for functions that change nothing: all layers, all calls. -/
theorem C105_unchanging (pf : PureFn V L R) (h : Unchanging pf) (c : Chain V) (calls : List (List V)) (w : L) : c.calls pf calls w = c.ideal.calls pf calls w := by
  rw [calls_plain]
  obtain ⟨h1, h2, h3⟩ := plain_values c
  generalize c.plain = p at h1 h2 h3
  generalize c.ideal = q at h1 h2 h3
  induction calls generalizing w with
  | nil => rfl
  | cons args calls ih =>
    simp only [Plain.calls, changed_same h]
    rw [ih, h1, h2, h3]

/-- **C105**, two layers of `>>` are one, around whatever. -/
theorem C105_merge (pf : PureFn V L R) (us vs : List (V × Bool)) (c : Chain V) (calls : List (List V)) (w : L) :
    (Chain.bind .front true us (.bind .front true vs c)).calls pf calls w = (Chain.bind .front true (vs ++ us) c).calls pf calls w := by
  rw [calls_plain, calls_plain]
  congr 1
  simp [Chain.plain, only, Chain.hasBack]

/-- **C105**, a `>>` and a `<<` may be exchanged, around whatever does not contain a `<<`. -/
theorem C105_exchange (pf : PureFn V L R) (keep : Bool) (us vs : List (V × Bool)) (c : Chain V) (h : c.hasBack = false) (calls : List (List V)) (w : L) :
    (Chain.bind .front true us (.bind .back keep vs c)).calls pf calls w = (Chain.bind .back true vs (.bind .front keep us c)).calls pf calls w := by
  rw [calls_plain, calls_plain]
  congr 1
  simp [Chain.plain, only, Chain.hasBack, h]

/-- **C105**, the arguments: with a `<<` among the layers, no argument is changed by a call, whatever the function does. -/
theorem C105_arguments_kept (pf : PureFn V L R) : ∀ (c : Chain V), c.hasBack = true → ∀ (args : List V) (w : L) (i : Nat) (v : V), args[i]? = some v →
    (c.call pf args w).2.2.1 i = v
  | .fn _, h, _, _, _, _, _ => by simp [Chain.hasBack] at h
  | .bind .front keep vs inner, h, args, w, i, v, hi => by
    have hb : inner.hasBack = true := h
    refine C105_arguments_kept pf inner hb (vs.map (·.1) ++ args) w (vs.length + i) v ?_
    rw [List.getElem?_append_right (by simp)]
    simpa using hi
  | .bind .back keep vs inner, _, args, w, i, v, hi => by simp only [Chain.call, hi, Option.getD_some]

/-- **C105**, the arguments: with layers of `>>` only, they are changed as by a direct call. -/
theorem C105_arguments_changed (pf : PureFn V L R) : ∀ (c : Chain V), c.hasBack = false → ∀ (args : List V) (w : L) (i : Nat),
    (c.call pf args w).2.2.1 i = (pf c.ideal.s (c.ideal.fs.map (·.1) ++ args) w).2.2.1 (c.ideal.fs.length + i)
  | .fn s, _, args, w, i => by simp [Chain.call, Chain.ideal]
  | .bind .front keep vs inner, h, args, w, i => by
    have hb : inner.hasBack = false := h
    have := C105_arguments_changed pf inner hb (vs.map (·.1) ++ args) w (vs.length + i)
    simp only [Chain.call, this, Chain.ideal]
    simp [only, List.map_map, Function.comp_def, Nat.add_assoc]
  | .bind .back _ _ _, h, _, _, _ => by simp [Chain.hasBack] at h

namespace Demo105

/-- Returns its arguments, and counts them up. -/
def up : PureFn Nat Unit (List Nat) := fun s args w => (s :: args, s + 1, fun i => args[i]?.getD 0 + 1, w)

/-- `compressed_tuple{ 10 } >> (compressed_tuple{ 20 } >> f)`: everything is counted. -/
example : (Chain.bind .front true [(10, true)] (.bind .front true [(20, true)] (.fn 0))).calls up [[1], [2]] () = [[0, 20, 10, 1], [1, 21, 11, 2]] := by
  rw [C105_front _ _ rfl]; rfl

/-- `compressed_tuple{ 10 } >> (compressed_tuple{ 20 } << f)`: the `20` only. -/
example : (Chain.bind .front true [(10, true)] (.bind .back true [(20, true)] (.fn 0))).calls up [[1], [2]] () = [[0, 10, 1, 20], [0, 10, 2, 21]] ∧
    (Chain.bind .back true [(20, true)] (.bind .front true [(10, true)] (.fn 0))).calls up [[1], [2]] () = [[0, 10, 1, 20], [0, 10, 2, 21]] := by
  rw [← C105_exchange up true [(10, true)] [(20, true)] (.fn 0) rfl]
  exact ⟨rfl, rfl⟩

/-- `compressed_tuple{ 10 } >> (compressed_tuple{ 20 } >> f)` counts an argument up, `compressed_tuple{ 10 } >> (compressed_tuple{ 20 } << f)` does not. -/
example : ((Chain.bind .front true [(10, true)] (.bind .front true [(20, true)] (.fn 0))).call up [1] ()).2.2.1 0 = 2 ∧
    ((Chain.bind .front true [(10, true)] (.bind .back true [(20, true)] (.fn 0))).call up [1] ()).2.2.1 0 = 1 :=
  ⟨by rw [C105_arguments_changed _ _ rfl]; rfl, C105_arguments_kept _ _ rfl _ _ _ _ rfl⟩

/-- A function that changes nothing. -/
example : Unchanging (fun s args w => (s :: args, s, fun i => args[i]?.getD 0, w) : PureFn Nat Unit (List Nat)) := by
  intro s args w
  exact ⟨rfl, fun i v h => by simp [h]⟩

end Demo105

/-- The expectation is wrong for `<<`: `compressed_tuple{ a } << (compressed_tuple{ b } << f)` is not `compressed_tuple{ a, b } << f`, which keeps the changes `f` makes to `a` and `b`. -/
theorem C105_two_backs :
    (Chain.bind .back true [(10, true)] (.bind .back true [(20, true)] (.fn 0))).calls Demo105.up [[1], [2]] () = [[0, 1, 10, 20], [0, 2, 10, 20]] ∧
    (Chain.bind .back true [(10, true), (20, true)] (.fn 0)).calls Demo105.up [[1], [2]] () = [[0, 1, 10, 20], [0, 2, 11, 21]] ∧
    (Chain.bind .back true [(10, true)] (.bind .back true [(20, true)] (.fn 0))).ideal.calls Demo105.up [[1], [2]] () = [[0, 1, 10, 20], [1, 2, 11, 21]] := ⟨rfl, rfl, rfl⟩

/-! ### Layers in memory -/

theorem again_chain (E : Embedding V) (pf : PureFn V L R) (keep : Bool) : ∀ (calls : List (List V)) (c : Chain V) (vk : List (V × Bool)) (w : L),
    callAgain (E.callAny pf) keep (vk.map (·.2)) calls (E.emb c) (vk.map (·.1)) w = (Chain.bind .front keep vk c).calls pf calls w
  | [], _, _, _ => rfl
  | args :: calls, c, vk, w => by
    have hz : (vk.map (·.1)).zip (vk.map (·.2)) = vk := by
      induction vk with
      | nil => rfl
      | cons p vk ih => simp only [List.map_cons, List.zip_cons_cons, ih]
    simp only [callAgain, Chain.calls, Chain.call, Embedding.callAny, E.prj_emb, hz]
    generalize c.call pf (vk.map (·.1) ++ args) w = q
    have h1 : (vk.mapIdx fun i p => if p.2 then q.2.2.1 i else p.1) = (after q.2.2.1 0 vk).map (·.1) := by
      apply List.ext_getElem?
      intro i
      simp only [after, List.getElem?_mapIdx, List.getElem?_map]
      rcases vk[i]? with _ | p <;> simp
    have h2 : vk.map (·.2) = (after q.2.2.1 0 vk).map (·.2) := by
      apply List.ext_getElem?
      intro i
      simp only [after, List.getElem?_mapIdx, List.getElem?_map]
      rcases vk[i]? with _ | p <;> simp
    have h3 : (if keep then E.emb q.2.1 else E.emb c) = E.emb (if keep then q.2.1 else c) := by cases keep <;> rfl
    rw [h1, h2, h3]
    have := again_chain E pf keep calls (if keep then q.2.1 else c) (after q.2.2.1 0 vk) q.2.2.2
    rw [← this]

theorem fresh_chain (E : Embedding V) (pf : PureFn V L R) (keep : Bool) : ∀ (calls : List (List V)) (c : Chain V) (vk : List (V × Bool)) (w : L),
    callFresh (E.callAny pf) (vk.map (·.2)) calls (E.emb c) (vk.map (·.1)) w = (Chain.bind .back keep vk c).calls pf calls w
  | [], _, _, _ => rfl
  | args :: calls, c, vk, w => by
    have hz : (vk.map (·.1)).zip (vk.map (·.2)) = vk := by
      induction vk with
      | nil => rfl
      | cons p vk ih => simp only [List.map_cons, List.zip_cons_cons, ih]
    simp only [callFresh, Chain.calls, Chain.call, Embedding.callAny, E.prj_emb, hz]
    generalize c.call pf (args ++ vk.map (·.1)) w = q
    have h1 : (vk.mapIdx fun i p => if p.2 then q.2.2.1 (args.length + i) else p.1) = (after q.2.2.1 args.length vk).map (·.1) := by
      apply List.ext_getElem?
      intro i
      simp only [after, List.getElem?_mapIdx, List.getElem?_map]
      rcases vk[i]? with _ | p <;> simp
    have h2 : vk.map (·.2) = (after q.2.2.1 args.length vk).map (·.2) := by
      apply List.ext_getElem?
      intro i
      simp only [after, List.getElem?_mapIdx, List.getElem?_map]
      rcases vk[i]? with _ | p <;> simp
    rw [h1, h2]
    have := fresh_chain E pf keep calls c (after q.2.2.1 args.length vk) q.2.2.2
    rw [← this]

variable {B : Type} [DecidableEq B]

/-- **C105** in memory, for each layer of `>>`: bind values to an object that is a bound callable itself, and calls are those of the callable with one more layer. -/
theorem C105_layer_front (E : Embedding V) (Λ : Lang B V) (isCT : B → Bool) (idxOf : B → Option Nat) (tb : B) (vs : List (Expr B))
    (f : Expr B) (m : Mem V L) (hlt : ∀ e ∈ vs, e.addr < m.next) (hf : f.addr < m.next)
    (hE : ∀ e ∈ vs, Λ.isEmpty e.base = true → m.get e.addr = Λ.emptyVal e.base)
    (hEf : Λ.isEmpty f.base = true → m.get f.addr = Λ.emptyVal f.base)
    (hlone : ∀ e, vs = [e] → isCT e.base = false) (htb : Λ.isEmpty tb = vs.all fun e => Λ.isEmpty e.base) (c : Chain V) (hc : m.get f.addr = E.emb c) :
    ∃ g m1, makeBound Λ isCT tb .front vs f m = some (g, m1) ∧ ∀ (R : Type) (pf : PureFn V L R) (calls : List (Cat × List (B × V))),
      (∀ p ∈ calls, ∀ x, p.2 = [x] → idxOf x.1 ≠ some 0 ∧ idxOf x.1 ≠ some 1) →
      g.runCalls Λ idxOf (E.callAny pf).code calls m1 =
        ((Chain.bind .front (!Λ.isEmpty f.base && !f.c) (vs.map fun e => (m.get e.addr, !Λ.isEmpty e.base)) c).calls pf (calls.map fun p => p.2.map (·.2)) m.world).map some := by
  obtain ⟨g, m1, h1, h2⟩ := C25_state_kept_front Λ isCT idxOf tb vs f m hlt hf hE hEf hlone htb
  refine ⟨g, m1, h1, fun R pf calls hi => ?_⟩
  rw [h2 R (E.callAny pf) calls hi, ← again_chain E pf, hc]
  simp only [List.map_map]
  rfl

/-- **C105** in memory, for each layer of `<<`. -/
theorem C105_layer_back (E : Embedding V) (Λ : Lang B V) (isCT : B → Bool) (idxOf : B → Option Nat) (tb : B) (vs : List (Expr B))
    (f : Expr B) (m : Mem V L) (hlt : ∀ e ∈ vs, e.addr < m.next) (hf : f.addr < m.next)
    (hE : ∀ e ∈ vs, Λ.isEmpty e.base = true → m.get e.addr = Λ.emptyVal e.base)
    (hEf : Λ.isEmpty f.base = true → m.get f.addr = Λ.emptyVal f.base)
    (hlone : ∀ e, vs = [e] → isCT e.base = false) (htb : Λ.isEmpty tb = vs.all fun e => Λ.isEmpty e.base) (c : Chain V) (hc : m.get f.addr = E.emb c) :
    ∃ g m1, makeBound Λ isCT tb .back vs f m = some (g, m1) ∧ ∀ (R : Type) (pf : PureFn V L R) (calls : List (Cat × List (B × V))),
      (∀ p ∈ calls, ∀ x, p.2 = [x] → idxOf x.1 ≠ some 0 ∧ idxOf x.1 ≠ some 1) →
      g.runCalls Λ idxOf (E.callAny pf).code calls m1 =
        ((Chain.bind .back true (vs.map fun e => (m.get e.addr, !Λ.isEmpty e.base)) c).calls pf (calls.map fun p => p.2.map (·.2)) m.world).map some := by
  obtain ⟨g, m1, h1, h2⟩ := C25_state_back_partial Λ isCT idxOf tb vs f m hlt hf hE hEf hlone htb
  refine ⟨g, m1, h1, fun R pf calls hi => ?_⟩
  rw [h2 R (E.callAny pf) calls hi, ← fresh_chain E pf, hc]
  simp only [List.map_map]
  rfl

/-- **C105** in memory, the arguments of a call of a layer of `>>`: (non-const) lvalues have the values afterwards that the layers inside give them. -/
theorem C105_arguments_front (E : Embedding V) (Λ : Lang B V) (idxOf : B → Option Nat) (b : Bound B) (hd : b.dir = .front) (cat : Cat)
    (pf : PureFn V L R) (args : List (Expr B)) (m : Mem V L) (keep : Bool) (vk : List (V × Bool)) (c : Chain V) (hok : b.ConstOk false)
    (hsep : b.Separate m.next) (hidx : ∀ e, args = [e] → idxOf e.base ≠ some 0 ∧ idxOf e.base ≠ some 1)
    (hlv : ∀ e ∈ args, e.cat = .lv ∧ e.c = false ∧ e.addr < m.next) (hnd : (args.map Expr.addr).Nodup)
    (hs : b.f.holds Λ m (E.emb c)) (hvs : Pairs (Elem.holds Λ m) b.els (vk.map (·.1))) :
    let r := (Chain.bind .front keep vk c).call pf (args.map fun e => m.get e.addr) m.world
    ∃ m', b.call Λ idxOf (E.callAny pf).code false cat args m = .invoked r.1 m' ∧
      (args.map fun e => m'.get e.addr) = (List.range args.length).map r.2.2.1 := by
  obtain ⟨m', h1, h2⟩ := call_front_args Λ idxOf b hd cat (E.callAny pf) args m (E.emb c) (vk.map Prod.fst) hok hsep hidx hlv hnd hs hvs
  have hl : vk.length = b.els.length := by simpa using hvs.1
  refine ⟨m', ?_, ?_⟩
  · rw [h1]
    simp only [Embedding.callAny, E.prj_emb, Chain.call]
  · rw [h2]
    simp only [Embedding.callAny, E.prj_emb, Chain.call, hl]

/-- **C105** in memory, the arguments of a call of a layer of `<<`: lvalues (other than the objects bound) are as before, whatever the layers inside do. -/
theorem C105_arguments_back (E : Embedding V) (Λ : Lang B V) (idxOf : B → Option Nat) (b : Bound B) (hd : b.dir = .back) (cat : Cat)
    (pf : PureFn V L R) (args : List (Expr B)) (m : Mem V L) (keep : Bool) (vk : List (V × Bool)) (c : Chain V) (hok : b.ConstOk false)
    (hsep : b.Separate m.next) (hidx : ∀ e, args = [e] → idxOf e.base ≠ some 0 ∧ idxOf e.base ≠ some 1)
    (hlv : ∀ e ∈ args, e.cat = .lv ∧ e.addr < m.next) (hap : ∀ e ∈ args, e.addr ∉ b.els.filterMap Elem.object)
    (hs : b.f.holds Λ m (E.emb c)) (hvs : Pairs (Elem.holds Λ m) b.els (vk.map (·.1))) :
    let r := (Chain.bind .back keep vk c).call pf (args.map fun e => m.get e.addr) m.world
    ∃ m', b.call Λ idxOf (E.callAny pf).code false cat args m = .invoked r.1 m' ∧
      (args.map fun e => m'.get e.addr) = (List.range args.length).map r.2.2.1 ∧ ∀ e ∈ args, m'.get e.addr = m.get e.addr := by
  obtain ⟨m', h1, h2⟩ := call_back_args Λ idxOf b hd cat (E.callAny pf) args m (E.emb c) (vk.map Prod.fst) hok hsep hidx hlv hap hs hvs
  refine ⟨m', ?_, ?_, h2⟩
  · rw [h1]
    simp only [Embedding.callAny, E.prj_emb, Chain.call]
  · apply List.ext_getElem?
    intro i
    cases hi : args[i]? with
    | none =>
      have : args.length ≤ i := by rwa [List.getElem?_eq_none_iff] at hi
      simp [this]
    | some e =>
      have hr : (List.range args.length)[i]? = some i := List.getElem?_range (List.getElem?_eq_some_iff.1 hi).1
      simp only [List.getElem?_map, hi, hr, Option.map_some, Chain.call, Option.getD_some]
      rw [h2 e (List.mem_of_getElem? hi)]

namespace Demo105

/-- Numbers and bound callables. -/
inductive Tree where
  | num (n : Nat)
  | bound (c : Chain Tree)

/-- Bound callables are among the values. -/
def trees : Embedding Tree := ⟨.bound, fun | .num _ => none | .bound c => some c, fun _ => rfl⟩

/-- `int`, `F` (a function), `G` (what `compressed_tuple{ 20 } >> f` returns). -/
def lang : Lang String Tree := ⟨fun _ => false, fun _ => .num 0, id, fun _ => .num 0⟩

/-- Number of a tree. -/
def Tree.get : Tree → Nat
  | .num n => n
  | .bound _ => 0

/-- Returns its own state and the arguments, and counts them up. -/
def upT : PureFn Tree Unit (List Nat) := fun s args w => (s.get :: args.map Tree.get, .num (s.get + 1), fun i => .num ((args[i]?.map Tree.get).getD 0 + 1), w)

/-- An object in memory: `compressed_tuple{ 20 } >> f`, at address 1. -/
def inner : Chain Tree := .bind .front true [(.num 20, true)] (.fn (.num 0))

/-- A number at address 0, and that object. -/
def mem : Mem Tree Unit := ⟨fun a => [.num 10, .bound inner].getD a (.num 0), fun a => decide (a < 2), 2, (), []⟩

/-- `auto g = compressed_tuple{ 10 } >> h;` with such an `h` in memory: calls of `g`. -/
example : ∃ g m1, makeBound lang (fun _ => false) "T" .front [⟨"int", false, false, .lv, 0⟩] ⟨"G", false, false, .lv, 1⟩ (mem) = some (g, m1) ∧
    g.runCalls lang (fun _ => none) (trees.callAny upT).code [(.lv, [("int", .num 1)]), (.lv, [("int", .num 2)])] m1 = [some [0, 20, 10, 1], some [1, 21, 11, 2]] := by
  obtain ⟨g, m1, h1, h2⟩ := C105_layer_front trees lang (fun _ => false) (fun _ => none) "T" [⟨"int", false, false, .lv, 0⟩] ⟨"G", false, false, .lv, 1⟩ (mem)
    (by decide) (by decide) (by intro _ _ h; cases h) (by intro h; cases h) (by intro _ _; rfl) (by rfl) inner rfl
  refine ⟨g, m1, h1, ?_⟩
  rw [h2 _ upT _ (by intro _ _ _ _; exact ⟨nofun, nofun⟩)]
  rfl

/-- A bound object (callable at address 1, value at address 0) and a variable at address 2. -/
def mem3 : Mem Tree Unit := ⟨fun a => [.num 10, .bound inner, .num 7].getD a (.num 0), fun a => decide (a < 3), 3, (), []⟩

/-- What `compressed_tuple{ 10 } >> h` or `<< h` is in that memory. -/
def held (dir : Dir) : Bound String := ⟨dir, .stored ⟨"G", false, false, .none⟩ 1, .stored ⟨"T", false, false, .none⟩ 0, [.stored ⟨"int", false, false, .none⟩ 0]⟩

/-- `int x = 7; g(x)`: with `>>`, `x` is counted up by `f`, two layers down. -/
example : ∃ m', (held .front).call lang (fun _ => none) (trees.callAny upT).code false .lv [⟨"int", false, false, .lv, 2⟩] mem3 = .invoked [0, 20, 10, 7] m' ∧
    m'.get 2 = .num 8 := by
  obtain ⟨m', h1, h2⟩ := C105_arguments_front trees lang (fun _ => none) (held .front) rfl .lv upT [⟨"int", false, false, .lv, 2⟩] mem3 true [(.num 10, true)] inner
    (by simp [Bound.ConstOk, held, Elem.constOk]) (by simp [Bound.Separate, held, Elem.object, mem3]) (by intro _ _; exact ⟨nofun, nofun⟩) (by simp [mem3]) (by simp) rfl
    ⟨rfl, fun i a h => by
      match i, h with
      | 0, h => simp [held] at h; subst h; exact ⟨_, rfl, rfl⟩
      | i + 1, h => simp [held] at h⟩
  refine ⟨m', h1, ?_⟩
  have h3 := congrArg List.head? h2
  exact Option.some.inj h3

/-- With `<<` it is not. -/
example : ∃ m', (held .back).call lang (fun _ => none) (trees.callAny upT).code false .lv [⟨"int", false, false, .lv, 2⟩] mem3 = .invoked [0, 20, 7, 10] m' ∧
    m'.get 2 = .num 7 := by
  obtain ⟨m', h1, -, h2⟩ := C105_arguments_back trees lang (fun _ => none) (held .back) rfl .lv upT [⟨"int", false, false, .lv, 2⟩] mem3 true [(.num 10, true)] inner
    (by simp [Bound.ConstOk, held, Elem.constOk]) (by simp [Bound.Separate, held, Elem.object, mem3]) (by intro _ _; exact ⟨nofun, nofun⟩) (by simp [mem3])
    (by simp [held, Elem.object]) rfl
    ⟨rfl, fun i a h => by
      match i, h with
      | 0, h => simp [held] at h; subst h; exact ⟨_, rfl, rfl⟩
      | i + 1, h => simp [held] at h⟩
  exact ⟨m', h1, h2 ⟨"int", false, false, .lv, 2⟩ (List.mem_singleton.2 rfl)⟩

end Demo105

end Pigro.Cxx
