import Verif.Model.LazyMake
import Verif.Proofs.LazyMem
import Verif.Proofs.Make
/-!
# Making lazy functions at memory level
-/
namespace Pigro.LM
open Cxx
variable {D W E S : Type}

section
variable {B V L : Type}

theorem initFrom_alive (Λ : Lang B V) (e : Expr B) (m : Mem V L) :
    m.next ≤ (Λ.initFrom e m).next ∧ ∀ a < m.next, (Λ.initFrom e m).alive a = m.alive a := by
  have h : ∀ a < m.next, (decide (a = m.next) || m.alive a) = m.alive a := by
    intro a ha
    rw [decide_eq_false (by omega), Bool.false_or]
  simp only [Lang.initFrom]
  split <;> exact ⟨by simp [Mem.alloc, Mem.write], h⟩

theorem fwdCapture_alive (Λ : Lang B V) (e : Expr B) (m : Mem V L) :
    m.next ≤ (fwdCapture Λ e m).2.next ∧ ∀ a < m.next, (fwdCapture Λ e m).2.alive a = m.alive a := by
  simp only [fwdCapture]
  split
  · exact ⟨Nat.le_refl _, fun _ _ => rfl⟩
  · exact initFrom_alive Λ e m

theorem element_alive (Λ : Lang B V) (e : Expr B) (m : Mem V L) :
    m.next ≤ (compressedTupleElement Λ e m).2.next ∧ ∀ a < m.next, (compressedTupleElement Λ e m).2.alive a = m.alive a := by
  simp only [compressedTupleElement]
  split
  · exact ⟨Nat.le_refl _, fun _ _ => rfl⟩
  · exact fwdCapture_alive Λ e m

theorem alive_trans {m m1 m2 : Mem V L} (h1 : m.next ≤ m1.next ∧ ∀ a < m.next, m1.alive a = m.alive a)
    (h2 : m1.next ≤ m2.next ∧ ∀ a < m1.next, m2.alive a = m1.alive a) : m.next ≤ m2.next ∧ ∀ a < m.next, m2.alive a = m.alive a :=
  ⟨by omega, fun a ha => by rw [h2.2 a (by omega), h1.2 a ha]⟩

theorem construct_alive [DecidableEq B] (Λ : Lang B V) (ts : List (Ty B)) (es : List (Expr B)) (m m' : Mem V L)
    (els : List (Elem B)) (h : construct Λ ts es m = some (els, m')) : m.next ≤ m'.next ∧ ∀ a < m.next, m'.alive a = m.alive a := by
  have h1 : ∀ (es : List (Expr B)) (m : Mem V L), m.next ≤ (mkElems Λ es m).2.next ∧ ∀ a < m.next, (mkElems Λ es m).2.alive a = m.alive a := by
    intro es
    induction es with
    | nil => intro m; exact ⟨Nat.le_refl _, fun _ _ => rfl⟩
    | cons e es ih =>
      intro m
      simp only [mkElems]
      exact alive_trans (element_alive Λ e m) (ih _)
  have h2 : ∀ (ts : List (Ty B)) (es : List (Expr B)) (m : Mem V L) (es' : List (Expr B)) (m' : Mem V L),
      castArgs Λ ts es m = some (es', m') → m.next ≤ m'.next ∧ ∀ a < m.next, m'.alive a = m.alive a := by
    intro ts
    induction ts with
    | nil =>
      intro es m es' m' h
      cases es <;> simp [castArgs] at h
      rw [h.2]
      exact ⟨Nat.le_refl _, fun _ _ => rfl⟩
    | cons t ts ih =>
      intro es m es' m' h
      cases es with
      | nil => simp [castArgs] at h
      | cons e es =>
        simp only [castArgs] at h
        rcases hc : castArg Λ t e m with _ | ⟨x, m1⟩
        · simp [hc] at h
        rcases hcs : castArgs Λ ts es m1 with _ | ⟨xs, m2⟩
        · simp [hc, hcs] at h
        simp only [hc, hcs, Option.some.injEq, Prod.mk.injEq] at h
        obtain ⟨rfl, rfl⟩ := h
        refine alive_trans ?_ (ih es m1 xs m2 hcs)
        rcases t with ⟨b, c, v, rf⟩
        cases rf <;> simp only [castArg] at hc <;> split at hc <;>
          simp only [Option.some.injEq, Prod.mk.injEq, reduceCtorEq] at hc <;> rw [← hc.2]
        · exact initFrom_alive Λ _ m
        all_goals exact ⟨Nat.le_refl _, fun _ _ => rfl⟩
  simp only [construct, Option.map_eq_some_iff] at h
  obtain ⟨⟨es', m1⟩, hc, hm⟩ := h
  have := h1 es' m1
  rw [← makeBase_eq, hm] at this
  exact alive_trans (h2 ts es m es' m1 hc) this

theorem element_keeps (Λ : Lang B V) (e : Expr B) (m : Mem V L) (he : e.addr < m.next) :
    Keeps (Moves e) m (compressedTupleElement Λ e m).2 := by
  simp only [compressedTupleElement]
  split
  · exact Keeps.refl _ _
  · simp only [fwdCapture]
    split
    · exact Keeps.refl _ _
    · exact Keeps.ofGrows (initFrom_grows Λ e m he).1

/-- What making a bound callable from named values does to what exists. -/
theorem makeBound_keeps [DecidableEq B] (Λ : Lang B V) (isCT : B → Bool) (tb : B) (dir : Dir) (es : List (Expr B)) (f : Expr B)
    (m m' : Mem V L) (b : Bound B) (hlt : ∀ e ∈ es, e.addr < m.next) (hf : f.addr < m.next)
    (hlone : ∀ e, es = [e] → isCT e.base = false) (h : makeBound Λ isCT tb dir es f m = some (b, m')) : Keeps (Moves f) m m' := by
  have hts : ctad isCT es = some (es.map fun e => e.type.removeCvref) := by
    rcases es with _ | ⟨e, _ | ⟨e', es⟩⟩
    · rfl
    · simp [ctad, hlone e rfl]
    · rfl
  simp only [makeBound, hts] at h
  rcases hc : construct Λ (es.map fun e => e.type.removeCvref) es m with _ | ⟨els, m1⟩
  · simp [hc] at h
  simp only [hc] at h
  have hnone : ∀ t ∈ es.map (fun e => e.type.removeCvref), t.ref = .none := by
    intro t ht
    obtain ⟨e, -, rfl⟩ := List.mem_map.1 ht
    simp [Ty.removeCvref, Ty.removeReference, Ty.removeCv]
  obtain ⟨c1, c2, c3, c4, c5, c6, -⟩ := construct_spec Λ _ es m m1 els hlt
    (fun i j t t' e e' _ ht _ hrr => by have := hnone t (List.mem_of_getElem? ht); rw [this] at hrr; simp at hrr) hc
  have k1 : Keeps (fun _ => False) m m1 := ⟨c3, fun a ha _ => c4 a ha (fun i t e ht _ hrr => by
    have := hnone t (List.mem_of_getElem? ht); rw [this] at hrr; simp at hrr), (construct_alive Λ _ es m m1 els hc).2⟩
  have k2 := k1.alloc (Λ.default tb)
  have hown : ∀ el ∈ els, ∀ a, el.owned = some a → m.next ≤ a ∧ a < m1.next := by
    intro el hel a ha
    obtain ⟨i, hi⟩ := List.mem_iff_getElem?.1 hel
    have hil : i < es.length := by
      have := (List.getElem?_eq_some_iff.1 hi).1
      rw [List.length_map] at c2
      omega
    obtain ⟨el', h1, -, h3⟩ := c5 i es[i].type.removeCvref es[i] (by simp [hil]) (by simp [hil])
    rw [hi] at h1
    simp only [Option.some.injEq] at h1
    subst h1
    split at h3
    · rw [h3] at ha; simp [Elem.owned] at ha
    · rw [if_neg (by rw [hnone _ (List.mem_map.2 ⟨es[i], by simp, rfl⟩)]; simp)] at h3
      obtain ⟨a', q1, q2, q3, -⟩ := h3
      rw [q1] at ha
      simp [Elem.owned] at ha
      omega
  have hb : bindTuple Λ dir f ⟨tb, false, false, .xv, m1.next⟩ els (m1.alloc (Λ.default tb)) = some (b, m') := by
    cases dir <;> exact h
  have n1 := k1.next
  have na : (m1.alloc (Λ.default tb)).next = m1.next + 1 := rfl
  have kf := element_keeps Λ f (m1.alloc (Λ.default tb)) (by omega)
  have nf := kf.next
  have kt := element_keeps Λ ⟨tb, false, false, .xv, m1.next⟩ (compressedTupleElement Λ f (m1.alloc (Λ.default tb))).2 (by simp only; omega)
  have nt := kt.next
  simp only [bindTuple] at hb
  have k3 : Keeps (Moves f) m (compressedTupleElement Λ f (m1.alloc (Λ.default tb))).2 :=
    (k2.mono (Y := Moves f) (by simp)).trans kf (by simp)
  have k4 : Keeps (Moves f) m (compressedTupleElement Λ ⟨tb, false, false, .xv, m1.next⟩
      (compressedTupleElement Λ f (m1.alloc (Λ.default tb))).2).2 := k3.trans kt (by
    intro a ha h
    have := h.1
    simp only at this
    omega)
  split at hb
  · simp only [Option.some.injEq, Prod.mk.injEq] at hb
    rw [← hb.2]
    exact k4
  · split at hb
    · simp only [Option.some.injEq, Prod.mk.injEq] at hb
      rw [← hb.2]
      exact k4
    · rename_i hi
      have hinit : initTuple Λ false .xv els (compressedTupleElement Λ ⟨tb, false, false, .xv, m1.next⟩
          (compressedTupleElement Λ f (m1.alloc (Λ.default tb))).2).2 =
          some (initElems Λ false .xv els (compressedTupleElement Λ ⟨tb, false, false, .xv, m1.next⟩
          (compressedTupleElement Λ f (m1.alloc (Λ.default tb))).2).2) := by
        rcases els with _ | ⟨x, _ | ⟨y, els⟩⟩ <;> rfl
      simp only [hinit, Option.some.injEq, Prod.mk.injEq] at hb
      obtain ⟨gi, -⟩ := initElems_spec Λ false .xv els (compressedTupleElement Λ ⟨tb, false, false, .xv, m1.next⟩
          (compressedTupleElement Λ f (m1.alloc (Λ.default tb))).2).2
        (fun el hel a ha => by have := hown el hel a ha; omega)
        (c6.imp fun h a b ha hb' => by have := h a b ha hb'; omega)
      rw [← hb.2]
      refine k4.trans (Keeps.ofGrows gi) ?_
      rintro a ha ⟨el, hel, h⟩
      have := hown el hel a h
      omega

end

/-- A new object at `a` holding `x`; of what existed before, only what the expressions `es` allow to be moved from has changed. -/
structure Made (es : List (Expr LB)) (x : MV D W E S) (m : LMem D W E S) (a : Nat) (m' : LMem D W E S) : Prop where
  new : m.next ≤ a
  lt : a < m'.next
  get : m'.get a = x
  alive : m'.alive a = true
  world : m'.world = m.world
  keeps : Keeps (fun a => ∃ e ∈ es, Moves e a) m m'

theorem bindHere_spec (Θ : Empties D W E S) (moved : MV D W E S → MV D W E S) (dir : Dir) (es : List (Expr LB)) (lam : LB × MV D W E S)
    (mk : MV D W E S → List (MV D W E S) → Option (MV D W E S)) (m : LMem D W E S) (hlt : ∀ e ∈ es, e.addr < m.next)
    (hE : ∀ e ∈ es, e.base.isEmpty = true → m.get e.addr = (lang Θ moved).emptyVal e.base) (hct : ∀ e ∈ es, isCT e.base = false)
    (hlam : lam.1.isEmpty = true → lam.2 = (lang Θ moved).emptyVal lam.1) :
    match mk lam.2 (es.map fun e => m.get e.addr) with
    | none => bindHere (lang Θ moved) dir es lam mk m = none
    | some x => ∃ a m', bindHere (lang Θ moved) dir es lam mk m = some (⟨Θ.base x, false, false, .xv, a⟩, m') ∧ Made [] x m a m' := by
  have ga := Grows.alloc (fun _ => False) m lam.2
  have na : (m.alloc lam.2).next = m.next + 1 := rfl
  have hg : ∀ e ∈ es, (m.alloc lam.2).get e.addr = m.get e.addr := fun e he => ga.frame _ (hlt e he) (by simp)
  have hvals : es.map (fun e => (m.alloc lam.2).get e.addr) = es.map fun e => m.get e.addr := List.map_congr_left hg
  have hlt2 : ∀ e ∈ es, e.addr < (m.alloc lam.2).next := fun e he => by have := hlt e he; omega
  have hlone : ∀ e, es = [e] → isCT e.base = false := fun e he => hct e (by rw [he]; simp)
  have hnf : m.next < (m.alloc lam.2).next := by omega
  obtain ⟨b, m3, hb, -, -, -, -, -, -, -, -, hfh, hHA, hw, hn3, -⟩ := makeBound_spec_all (lang Θ moved) isCT
    (if es.all fun e => (lang Θ moved).isEmpty e.base then LB.emptyTuple else .tuple) dir
    es ⟨lam.1, false, false, .xv, m.next⟩ (m.alloc lam.2) hlt2 hnf
    (by
      intro e he h
      rw [hg e he]
      exact hE e he h)
    (fun h => by rw [alloc_get]; exact hlam h) hlone (by
      generalize es.all _ = q
      cases q <;> rfl)
  have kb := makeBound_keeps (lang Θ moved) isCT (if es.all fun e => (lang Θ moved).isEmpty e.base then LB.emptyTuple else .tuple) dir _ _ _ m3 b hlt2 hnf hlone hb
  rw [hvals] at hHA
  have e1 := elemVal_eq hfh
  have e2 := elemVals_eq hHA
  rw [alloc_get] at e1
  rcases hmk : mk lam.2 (es.map fun e => m.get e.addr) with _ | x
  · simp only [bindHere, hb, e1, e2, hmk]
  · simp only [bindHere, hb, e1, e2, hmk]
    have km : Keeps (fun a => ∃ e ∈ ([] : List (Expr LB)), Moves e a) m m3 := by
      refine Keeps.trans (m1 := m.alloc lam.2) ?_ kb ?_
      · exact Keeps.alloc (Keeps.refl _ _) _
      · intro a ha h
        have := h.1
        simp only at this
        omega
    refine ⟨m3.next, _, rfl, by omega, by simp [Mem.kill, Mem.alloc], alloc_get m3 x, ?_, ?_, ?_⟩
    · simp only [Mem.kill, alloc_alive]
      rw [decide_eq_false (p := m3.next = _) (by omega)]
      simp
    · show m3.world = m.world
      rw [hw]
      rfl
    · exact (km.alloc x).kill _ (Nat.le_refl _)

theorem build_spec (Θ : Empties D W E S) (moved : MV D W E S → MV D W E S) (dir : Dir) (params : List (Expr LB)) (lam : LB × MV D W E S)
    (mk : MV D W E S → List (MV D W E S) → Option (MV D W E S)) (m : LMem D W E S) (hlt : ∀ e ∈ params, e.addr < m.next) (hx : Apart params)
    (hE : ∀ e ∈ params, e.base.isEmpty = true → m.get e.addr = (lang Θ moved).emptyVal e.base) (hct : ∀ e ∈ params, isCT e.base = false)
    (hlam : lam.1.isEmpty = true → lam.2 = (lang Θ moved).emptyVal lam.1) :
    match mk lam.2 (params.map fun e => m.get e.addr) with
    | none => build (lang Θ moved) dir params lam mk m = none
    | some x => ∃ a m', build (lang Θ moved) dir params lam mk m = some (⟨Θ.base x, false, false, .xv, a⟩, m') ∧ Made params x m a m' := by
  obtain ⟨g1, l1, d1⟩ := decayAll_spec (lang Θ moved) params m hlt hx
  have n1 := g1.next
  -- the parameters
  have hp : ∀ (i : Nat) p, ((decayAll (lang Θ moved) params m).1.map Expr.named)[i]? = some p → ∃ e, params[i]? = some e ∧ p.base = e.base ∧
      p.addr < (decayAll (lang Θ moved) params m).2.next ∧ m.next ≤ p.addr ∧
      (decayAll (lang Θ moved) params m).2.get p.addr = m.get e.addr := by
    intro i p hi
    rw [List.getElem?_map, Option.map_eq_some_iff] at hi
    obtain ⟨q, hq, rfl⟩ := hi
    have hil : i < params.length := by have := (List.getElem?_eq_some_iff.1 hq).1; omega
    obtain ⟨e', he', h1, -, -, -, h2, h3, h4⟩ := d1 i params[i] (by simp [hil])
    rw [hq] at he'
    simp only [Option.some.injEq] at he'
    subst he'
    exact ⟨params[i], by simp [hil], h1, h3, h2, h4⟩
  have hp' : ∀ p ∈ (decayAll (lang Θ moved) params m).1.map Expr.named, ∃ e ∈ params, p.base = e.base ∧
      p.addr < (decayAll (lang Θ moved) params m).2.next ∧ m.next ≤ p.addr ∧
      (decayAll (lang Θ moved) params m).2.get p.addr = m.get e.addr := by
    intro p hmem
    obtain ⟨i, hi⟩ := List.mem_iff_getElem?.1 hmem
    obtain ⟨e, he, h⟩ := hp i p hi
    exact ⟨e, List.mem_of_getElem? he, h⟩
  have hvals : ((decayAll (lang Θ moved) params m).1.map Expr.named).map (fun e => (decayAll (lang Θ moved) params m).2.get e.addr) =
      params.map fun e => m.get e.addr := by
    apply List.ext_getElem (by simp [l1])
    intro i h1 h2
    rw [List.length_map] at h1 h2
    obtain ⟨e, he, -, -, -, h⟩ := hp i _ (List.getElem?_eq_getElem h1)
    rw [List.getElem_map, h, List.getElem_map]
    rw [List.getElem?_eq_getElem h2, Option.some.injEq] at he
    rw [he]
  have hs := bindHere_spec Θ moved dir ((decayAll (lang Θ moved) params m).1.map Expr.named) lam mk (decayAll (lang Θ moved) params m).2
    (fun p hmem => (hp' p hmem).elim fun e h => h.2.2.1)
    (by
      intro p hmem h
      obtain ⟨e, he, hb, -, -, h4⟩ := hp' p hmem
      rw [h4, hb]
      rw [hb] at h
      exact hE e he h)
    (by
      intro p hmem
      obtain ⟨e, he, hb, -⟩ := hp' p hmem
      rw [hb]
      exact hct e he) hlam
  rw [hvals] at hs
  rcases hmk : mk lam.2 (params.map fun e => m.get e.addr) with _ | x
  · simp only [hmk] at hs
    simp only [build, hs, hmk]
  · simp only [hmk] at hs
    obtain ⟨a, m1, h1, mk1⟩ := hs
    have hnew := mk1.new
    simp only [build, h1, hmk]
    have km : Keeps (fun a => ∃ e ∈ params, Moves e a) m m1 := (Keeps.ofGrows g1).trans mk1.keeps (by simp)
    refine ⟨a, _, rfl, by omega, mk1.lt, mk1.get, ?_, ?_, km.killRange _ _ (Nat.le_refl _)⟩
    · simp only [Mem.killRange, mk1.alive]
      rw [decide_eq_false (p := a < _) (by omega)]
      simp
    · show m1.world = m.world
      rw [mk1.world]
      exact g1.world

/-- The expression denotes an object holding `x`. -/
def Den (Θ : Empties D W E S) (m : LMem D W E S) (e : Expr LB) (x : MV D W E S) : Prop := e.addr < m.next ∧ e.base = Θ.base x ∧ m.get e.addr = x

theorem Den.keeps {Θ : Empties D W E S} {X : Nat → Prop} {m m' : LMem D W E S} {e : Expr LB} {x : MV D W E S} (h : Den Θ m e x) (hk : Keeps X m m') (hX : ¬ X e.addr) :
    Den Θ m' e x := by
  have := hk.next
  have := h.1
  exact ⟨by omega, h.2.1, by rw [hk.frame _ h.1 hX]; exact h.2.2⟩

theorem Made.den {Θ : Empties D W E S} {es : List (Expr LB)} {x : MV D W E S} {m m' : LMem D W E S} {a : Nat} (h : Made es x m a m') (cat : Cat) (c v : Bool) :
    Den Θ m' ⟨Θ.base x, c, v, cat, a⟩ x := ⟨h.lt, rfl, h.get⟩

theorem rel2_mem {α β : Type} {P : α → β → Prop} : ∀ {xs : List α} {ys : List β}, Rel2 P xs ys → ∀ x ∈ xs, ∃ y ∈ ys, P x y
  | [], [], _, _, hx => by simp at hx
  | x :: xs, y :: ys, h, z, hz => by
    rcases List.mem_cons.1 hz with rfl | hz
    · exact ⟨y, by simp, h.1⟩
    · obtain ⟨w, hw, hp⟩ := rel2_mem h.2 z hz
      exact ⟨w, by simp [hw], hp⟩

theorem rel2_map {α β γ : Type} {P : α → β → Prop} {f : α → γ} {g : β → γ} (hP : ∀ a b, P a b → f a = g b) :
    ∀ {xs : List α} {ys : List β}, Rel2 P xs ys → xs.map f = ys.map g
  | [], [], _ => rfl
  | x :: xs, y :: ys, h => by
    rw [List.map_cons, List.map_cons, hP x y h.1, rel2_map hP h.2]

theorem base_isCT (Θ : Empties D W E S) (x : MV D W E S) : isCT (Θ.base x) = false := by
  rcases x with ⟨_ | _ | _ | _⟩ | ⟨_ | _⟩ | _ | _ | _ | _ | _ <;> simp only [Empties.base] <;> first | rfl | (split <;> rfl)

theorem build_den (Θ : Empties D W E S) (moved : MV D W E S → MV D W E S) (dir : Dir) (params : List (Expr LB)) (xs : List (MV D W E S)) (lam : LB × MV D W E S)
    (mk : MV D W E S → List (MV D W E S) → Option (MV D W E S)) (m : LMem D W E S) (hd : Rel2 (Den Θ m) params xs) (hx : Apart params)
    (hlam : lam.1.isEmpty = true → lam.2 = (lang Θ moved).emptyVal lam.1) :
    match mk lam.2 xs with
    | none => build (lang Θ moved) dir params lam mk m = none
    | some x => ∃ a m', build (lang Θ moved) dir params lam mk m = some (⟨Θ.base x, false, false, .xv, a⟩, m') ∧ Made params x m a m' := by
  have h := build_spec Θ moved dir params lam mk m (fun e he => by
      obtain ⟨x, -, h⟩ := rel2_mem hd e he
      exact h.1) hx (by
      intro e he h
      obtain ⟨x, -, -, h1, h2⟩ := rel2_mem hd e he
      rw [h1] at h ⊢
      rw [h2]
      exact base_empty Θ moved x h) (by
      intro e he
      obtain ⟨x, -, -, h1, -⟩ := rel2_mem hd e he
      rw [h1]
      exact base_isCT Θ x) hlam
  rwa [rel2_map (g := id) (fun a b h => h.2.2) hd, List.map_id] at h

theorem den_one (Θ : Empties D W E S) (moved : MV D W E S → MV D W E S) (dir : Dir) (f : Expr LB) (x : MV D W E S) (lam : LamId)
    (mk : MV D W E S → List (MV D W E S) → Option (MV D W E S)) (m : LMem D W E S) (hf : Den Θ m f x) (y : MV D W E S)
    (hmk : mk .unit [x] = some y) :
    ∃ a m', build (lang Θ moved) dir [f] (.lam lam, .unit) mk m = some (⟨Θ.base y, false, false, .xv, a⟩, m') ∧ Made [f] y m a m' := by
  have h := build_den Θ moved dir [f] [x] (.lam lam, .unit) mk m ⟨hf, trivial⟩ (by simp [Apart]) (fun _ => rfl)
  simp only [hmk] at h
  exact h

theorem regularizedM_spec (Θ : Empties D W E S) (moved : MV D W E S → MV D W E S) (f : Expr LB) (u : UFn D W E S) (m : LMem D W E S) (hf : Den Θ m f (.user u)) :
    ∃ a m', regularizedM (lang Θ moved) f m = some (⟨Θ.base (.func (.regularized u)), false, false, .xv, a⟩, m') ∧ Made [f] (.func (.regularized u)) m a m' :=
  den_one Θ moved .front f _ _ _ m hf _ rfl

theorem wrapDepM_spec (Θ : Empties D W E S) (moved : MV D W E S → MV D W E S) (f : Expr LB) (u : UFn D W E S) (m : LMem D W E S) (hf : Den Θ m f (.user u)) :
    ∃ a m', wrapDepM (lang Θ moved) f m = some (⟨Θ.base (.func (.wrapDep u)), false, false, .xv, a⟩, m') ∧ Made [f] (.func (.wrapDep u)) m a m' := by
  have h := bindHere_spec Θ moved .back [f] (.lam .poll, .unit) asWrapDep m (by simpa using hf.1) (by
      intro e he h
      rw [List.mem_singleton] at he
      subst he
      rw [hf.2.2]
      rw [hf.2.1] at h ⊢
      exact base_empty Θ moved _ h) (by
      intro e he
      rw [List.mem_singleton] at he
      subst he
      rw [hf.2.1]
      exact base_isCT Θ _) (fun _ => rfl)
  simp only [List.map_cons, List.map_nil, hf.2.2, asWrapDep] at h
  obtain ⟨a, m', h1, mk⟩ := h
  exact ⟨a, m', h1, mk.new, mk.lt, mk.get, mk.alive, mk.world, mk.keeps.mono (by simp)⟩

theorem unregularizedM_spec (Θ : Empties D W E S) (moved : MV D W E S → MV D W E S) (f : Expr LB) (o : Obj D W E S) (m : LMem D W E S) (hf : Den Θ m f (.obj o)) :
    ∃ a m', unregularizedM (lang Θ moved) f m = some (⟨Θ.base (.obj (.unregularized o)), false, false, .xv, a⟩, m') ∧ Made [f] (.obj (.unregularized o)) m a m' :=
  den_one Θ moved .front f _ _ _ m hf _ rfl

theorem unwrapM_spec (Θ : Empties D W E S) (moved : MV D W E S → MV D W E S) (f : Expr LB) (o : Obj D W E S) (m : LMem D W E S) (hf : Den Θ m f (.obj o)) :
    ∃ a m', unwrapM (lang Θ moved) f m = some (⟨Θ.base (.obj (.unwrapped o)), false, false, .xv, a⟩, m') ∧ Made [f] (.obj (.unwrapped o)) m a m' :=
  den_one Θ moved .back f _ _ _ m hf _ rfl

theorem lazyValueM_spec (Θ : Empties D W E S) (moved : MV D W E S → MV D W E S) (value changed : Expr LB) (v : Val D) (c : Bool) (m : LMem D W E S)
    (hv : Den Θ m value (.val v)) (hc : Den Θ m changed (.flag c)) (hx : Apart [value, changed]) :
    ∃ a m', lazyValueM (lang Θ moved) value changed m = some (⟨Θ.base (.obj (.lazyValue v c)), false, false, .xv, a⟩, m') ∧
      Made [value, changed] (.obj (.lazyValue v c)) m a m' := by
  have h := build_den Θ moved .back [value, changed] [.val v, .flag c] (.lam .value, .unit) asLazyValue m ⟨hv, hc, trivial⟩ hx (fun _ => rfl)
  exact h

theorem lazyValueM_none (Θ : Empties D W E S) (moved : MV D W E S → MV D W E S) (value changed : Expr LB) (o : Obj D W E S) (c : Bool) (m : LMem D W E S)
    (hv : Den Θ m value (.obj o)) (hc : Den Θ m changed (.flag c)) (hx : Apart [value, changed]) :
    lazyValueM (lang Θ moved) value changed m = none := by
  have h := build_den Θ moved .back [value, changed] [.obj o, .flag c] (.lam .value, .unit) asLazyValue m ⟨hv, hc, trivial⟩ hx (fun _ => rfl)
  exact h

theorem detailLazyM_spec (Θ : Empties D W E S) (moved : MV D W E S → MV D W E S) (f : Expr LB) (deps : List (Expr LB)) (F : Fun D W E S) (os : List (Obj D W E S))
    (m : LMem D W E S) (hf : Den Θ m f (.func F)) (hd : Rel2 (Den Θ m) deps (os.map .obj)) (hx : Apart (f :: deps)) :
    ∃ a m', detailLazyM (lang Θ moved) f deps m = some (⟨Θ.base (.obj (detailLazy F os)), false, false, .xv, a⟩, m') ∧
      Made (f :: deps) (.obj (detailLazy F os)) m a m' := by
  have hr : retOf m f = some F.ret := by rw [retOf, hf.2.2]
  have h := build_den Θ moved .back (f :: deps) (.func F :: os.map .obj) (.closure, .cache (Cache.empty F.ret)) asCore m ⟨hf, hd⟩ hx (by simp [LB.isEmpty])
  simp only [asCore, asObjs_eq, Option.map_some] at h
  simp only [detailLazyM, hr]
  exact h

/-- What is passed as a dependency, in memory. -/
def argVal : DepArg D W E S → MV D W E S
  | .value v => .val v
  | .function u => .user u
  | .lazyObj o => .obj o

theorem capsM_argVal (a : DepArg D W E S) : capsM (argVal a) = a.caps := by cases a <;> rfl

theorem Made.noMoves {es : List (Expr LB)} {x : MV D W E S} {m m' : LMem D W E S} {a : Nat} (h : Made es x m a m') (hes : ∀ e ∈ es, e.cat = .lv) :
    Keeps (fun _ => False) m m' :=
  h.keeps.mono fun a _ h => not_moves_lv hes a h

/-- The copy in a by-value parameter. -/
theorem param_spec (Θ : Empties D W E S) (moved : MV D W E S → MV D W E S) (dep : Expr LB) (x : MV D W E S) (m : LMem D W E S) (hd : Den Θ m dep x) (hlv : dep.cat = .lv) :
    Keeps (fun _ => False) m ((lang Θ moved).initFrom dep m) ∧ ((lang Θ moved).initFrom dep m).world = m.world ∧
      ((lang Θ moved).initFrom dep m).next = m.next + 1 ∧ ∀ c v cat, Den Θ ((lang Θ moved).initFrom dep m) ⟨dep.base, c, v, cat, m.next⟩ x := by
  obtain ⟨g, n, v⟩ := initFrom_grows (lang Θ moved) dep m hd.1
  refine ⟨(Keeps.ofGrows g).mono fun a _ h => ?_, g.world, n, fun _ _ _ => ⟨by simp only; omega, hd.2.1, by rw [v]; exact hd.2.2⟩⟩
  have := h.2.1
  rw [hlv] at this
  simp at this

theorem ensureLazyM_spec [CxxData D] (Θ : Empties D W E S) (moved : MV D W E S → MV D W E S) (dep : Expr LB) (d : DepArg D W E S) (m : LMem D W E S)
    (hd : Den Θ m dep (argVal d)) (hlv : dep.cat = .lv) :
    match ensureLazy d with
    | none => ensureLazyM (lang Θ moved) dep m = none
    | some o => ∃ a m', ensureLazyM (lang Θ moved) dep m = some (⟨Θ.base (.obj o), false, false, .xv, a⟩, m') ∧ Made [dep] (.obj o) m a m' := by
  obtain ⟨kp, wp, np, dp⟩ := param_spec Θ moved dep _ m hd hlv
  have hn1 : ((((lang Θ moved).initFrom dep m).alloc (.flag false)) : LMem D W E S).next = m.next + 2 := by rw [alloc_next, np]
  have hbase := hd.2.1
  -- what the overloads for lazy functions and for anything do
  have hasIs : ∀ o, d = .lazyObj o → o.caps = ⟨true, true⟩ → ensureLazy d = some o ∧
      ∃ a m', ensureLazyM (lang Θ moved) dep m = some (⟨Θ.base (.obj o), false, false, .xv, a⟩, m') ∧ Made [dep] (.obj o) m a m' := by
    intro o ho hcaps
    subst ho
    have h1 : ensureSelect (DepArg.caps (.lazyObj o)) = some .asIs := by
      simp only [DepArg.caps, hcaps]; rfl
    refine ⟨by simp only [ensureLazy, h1], ?_⟩
    have h2 : ensureSelect (capsM (m.get dep.addr)) = some .asIs := by rw [hd.2.2, capsM_argVal, h1]
    obtain ⟨g, n, v⟩ := initFrom_grows (lang Θ moved) ⟨dep.base, false, false, .xv, m.next⟩ ((lang Θ moved).initFrom dep m) (by simp only; omega)
    refine ⟨m.next + 1, ((lang Θ moved).initFrom ⟨dep.base, false, false, .xv, m.next⟩ ((lang Θ moved).initFrom dep m)).kill m.next,
      ?_, ?_, ?_, ?_, ?_, ?_, ?_⟩
    · simp only [ensureLazyM, h2, decayCopy, np, hbase, argVal]
    · omega
    · show _ < ((lang Θ moved).initFrom ⟨dep.base, false, false, .xv, m.next⟩ ((lang Θ moved).initFrom dep m)).next
      omega
    · show ((lang Θ moved).initFrom ⟨dep.base, false, false, .xv, m.next⟩ ((lang Θ moved).initFrom dep m)).get (m.next + 1) = _
      rw [← np, v]
      exact (dp false false .xv).2.2
    · simp only [Mem.kill]
      rw [g.aliveNew (m.next + 1) (by omega) (by omega)]
      simp
    · show ((lang Θ moved).initFrom ⟨dep.base, false, false, .xv, m.next⟩ ((lang Θ moved).initFrom dep m)).world = _
      rw [g.world, wp]
    · refine Keeps.kill ((kp.mono (by simp)).trans (Keeps.ofGrows g) ?_) _ (Nat.le_refl _)
      intro a ha h
      have := h.1
      simp only at this
      omega
  have hconst : d.caps.invocable = false → ensureSelect d.caps = some .constant ∧
      ensureLazyM (lang Θ moved) dep m = match lazyValueM (lang Θ moved) ⟨dep.base, false, false, .lv, m.next⟩
          ⟨.flag false, false, false, .xv, m.next + 1⟩ (((lang Θ moved).initFrom dep m).alloc (.flag false)) with
        | none => none
        | some (r, m2) => some (r, m2.killRange m.next (m.next + 2)) := by
    intro hcaps
    have h1 : ensureSelect d.caps = some .constant := by
      rcases hc : d.caps with ⟨x, y⟩
      rw [hc] at hcaps
      simp only at hcaps
      subst hcaps
      cases x <;> rfl
    have h2 : ensureSelect (capsM (m.get dep.addr)) = some .constant := by rw [hd.2.2, capsM_argVal, h1]
    refine ⟨h1, ?_⟩
    simp only [ensureLazyM, h2, decayCopy, hn1, np, Expr.named]
    all_goals rfl
  have hflag : Den Θ (((lang Θ moved).initFrom dep m).alloc (.flag false)) (⟨.flag false, false, false, .xv, m.next + 1⟩ : Expr LB)
      (.flag false : MV D W E S) := ⟨by rw [hn1]; simp only; omega, rfl, by simp only; rw [← np, alloc_get]⟩
  have hpar : Den Θ (((lang Θ moved).initFrom dep m).alloc (.flag false)) ⟨dep.base, false, false, .lv, m.next⟩ (argVal d) :=
    (dp false false .lv).keeps (Keeps.alloc (Keeps.refl (fun _ => False) _) _) (by simp)
  have hap : Apart [(⟨dep.base, false, false, .lv, m.next⟩ : Expr LB), ⟨.flag false, false, false, .xv, m.next + 1⟩] := by
    simp [Apart]
  have kp1 : Keeps (fun _ => False) m (((lang Θ moved).initFrom dep m).alloc (.flag false)) := kp.alloc _
  rcases d with v | u | o
  · -- a value
    obtain ⟨h1, h2⟩ := hconst rfl
    have he : ensureLazy (.value v : DepArg D W E S) = some (.lazyValue v false) := rfl
    obtain ⟨a, m', h3, mk⟩ := lazyValueM_spec Θ moved _ _ v false _ hpar hflag hap
    rw [he, h2, h3]
    have hk : Keeps (fun a => ∃ e ∈ [dep], Moves e a) m m' := (kp1.mono (by simp)).trans mk.keeps (by
      rintro b hb ⟨e, hmem, h⟩
      simp only [List.mem_cons, List.not_mem_nil, or_false] at hmem
      rcases hmem with rfl | rfl
      · have := h.2.1; simp at this
      · have := h.1; simp only at this; omega)
    have := mk.new
    refine ⟨a, _, rfl, by omega, mk.lt, mk.get, ?_, ?_, hk.killRange _ _ (Nat.le_refl _)⟩
    · simp only [Mem.killRange, mk.alive]
      rw [decide_eq_false (p := a < _) (by omega)]
      simp
    · show m'.world = _
      rw [mk.world]
      exact wp
  · -- a function
    have h1 : ensureSelect (DepArg.caps (.function u : DepArg D W E S)) = some .poll := rfl
    have h2 : ensureSelect (capsM (.user u : MV D W E S)) = some .poll := rfl
    have hg : m.get dep.addr = .user u := hd.2.2
    by_cases hv : u.ret = .void
    · simp only [ensureLazy, h1, if_pos hv, ensureLazyM, h2, hg]
    · simp only [ensureLazy, h1, if_neg hv, ensureLazyM, h2, hg, decayCopy]
      obtain ⟨a, m1, h3, mk⟩ := wrapDepM_spec Θ moved (Expr.named ⟨dep.base, false, false, .xv, m.next⟩) u _ (dp false false .lv)
      simp only [h3]
      have hnew := mk.new
      have hlt := mk.lt
      have k2 : Keeps (fun _ => False) m1 ((m1.alloc (.val (.data CxxData.zero))).alloc (.flag true)) :=
        Keeps.alloc (Keeps.alloc (Keeps.refl _ _) _) _
      have n2 : ((m1.alloc (.val (.data CxxData.zero))).alloc (.flag true)).next = m1.next + 2 := rfl
      have hz : Den Θ ((m1.alloc (.val (.data CxxData.zero))).alloc (.flag true)) ⟨Θ.base (.val (.data CxxData.zero)), false, false, .xv, m1.next⟩
          (.val (.data CxxData.zero) : MV D W E S) := ⟨by rw [n2]; simp only; omega, rfl, by simp [Mem.alloc]⟩
      have ht : Den Θ ((m1.alloc (.val (.data CxxData.zero))).alloc (.flag true)) ⟨.flag true, false, false, .xv, m1.next + 1⟩
          (.flag true : MV D W E S) := ⟨by rw [n2]; simp only; omega, rfl, by simp [Mem.alloc]⟩
      obtain ⟨b, m3, h4, mk3⟩ := lazyValueM_spec Θ moved _ _ _ true _ hz ht (by simp [Apart])
      have hlb : (lang Θ moved).base = Θ.base := rfl
      simp only [hlb, h4]
      have hnew3 := mk3.new
      have hlt3 := mk3.lt
      have hX3 : ∀ c < m1.next, ¬ ∃ e ∈ [(⟨Θ.base (.val (.data CxxData.zero)), false, false, .xv, m1.next⟩ : Expr LB), ⟨.flag true, false, false, .xv, m1.next + 1⟩], Moves e c := by
        rintro c hc ⟨e, hmem, h⟩
        simp only [List.mem_cons, List.not_mem_nil, or_false] at hmem
        rcases hmem with rfl | rfl <;> (have := h.1; simp only at this; omega)
      have k3 : Keeps (fun _ => False) m1 m3 := k2.trans mk3.keeps fun c hc h => hX3 c hc h
      have hF : Den Θ m3 ⟨Θ.base (.func (.wrapDep u)), false, false, .xv, a⟩ (.func (.wrapDep u) : MV D W E S) :=
        (mk.den .xv false false).keeps k3 (by simp)
      obtain ⟨c, m4, h5, mk5⟩ := detailLazyM_spec Θ moved ⟨Θ.base (.func (.wrapDep u)), false, false, .xv, a⟩
        [⟨Θ.base (.obj (.lazyValue (.data CxxData.zero) true)), false, false, .xv, b⟩] (.wrapDep u)
        [.lazyValue (.data CxxData.zero) true] m3 hF ⟨mk3.den .xv false false, trivial⟩ (by
          simp only [Apart, List.pairwise_cons, List.mem_singleton, forall_eq, List.not_mem_nil, false_implies, implies_true, List.Pairwise.nil,
            and_true]
          intro _
          omega)
      simp only [h5]
      have hnew5 := mk5.new
      have k1 : Keeps (fun _ => False) m m1 := kp.trans (mk.noMoves (by simp [Expr.named])) (by simp)
      have k13 : Keeps (fun _ => False) m m3 := k1.trans k3 (by simp)
      have k14 : Keeps (fun a => ∃ e ∈ [dep], Moves e a) m m4 := (k13.mono (by simp)).trans mk5.keeps (by
        rintro x hx ⟨e, hmem, h⟩
        simp only [List.mem_cons, List.not_mem_nil, or_false] at hmem
        rcases hmem with rfl | rfl <;> (have := h.1; simp only at this; omega))
      have := k13.next
      refine ⟨c, _, rfl, by omega, mk5.lt, mk5.get, ?_, ?_, k14.killRange _ _ (Nat.le_refl _)⟩
      · simp only [Mem.killRange, mk5.alive]
        rw [decide_eq_false (p := c < _) (by omega)]
        simp
      · show m4.world = _
        rw [mk5.world, mk3.world]
        show m1.world = _
        rw [mk.world, wp]
  · -- a lazy object
    by_cases hc : o.caps = ⟨true, true⟩
    · obtain ⟨h1, h2⟩ := hasIs o rfl hc
      rw [h1]
      exact h2
    · have hi : (DepArg.lazyObj o).caps.invocable = false := by
        cases o <;> simp_all [DepArg.caps, Obj.caps]
      obtain ⟨h1, h2⟩ := hconst hi
      have he : ensureLazy (.lazyObj o) = none := by simp only [ensureLazy, h1]
      rw [he]
      simp only
      rw [h2, lazyValueM_none Θ moved _ _ o false _ hpar hflag hap]

/-- Objects made one after another. -/
structure MadeAll (Θ : Empties D W E S) (es : List (Expr LB)) (os : List (Obj D W E S)) (m m' : LMem D W E S) : Prop where
  den : Rel2 (Den Θ m') es (os.map .obj)
  obj : ∀ e ∈ es, e.cat = .xv ∧ m.next ≤ e.addr ∧ e.addr < m'.next
  nonconst : ∀ e ∈ es, e.c = false
  order : es.Pairwise fun e e' => e.addr < e'.addr
  world : m'.world = m.world
  keeps : Keeps (fun _ => False) m m'

theorem rel2_den_keeps {Θ : Empties D W E S} {X : Nat → Prop} {m m' : LMem D W E S} (hk : Keeps X m m') : ∀ {es : List (Expr LB)} {xs : List (MV D W E S)},
    Rel2 (Den Θ m) es xs → (∀ e ∈ es, ¬ X e.addr) → Rel2 (Den Θ m') es xs
  | [], [], _, _ => trivial
  | e :: es, x :: xs, h, hX => ⟨h.1.keeps hk (hX e (by simp)), rel2_den_keeps hk h.2 fun e' he' => hX e' (by simp [he'])⟩

theorem ensureAllM_spec [CxxData D] (Θ : Empties D W E S) (moved : MV D W E S → MV D W E S) : ∀ (deps : List (Expr LB)) (ds : List (DepArg D W E S)) (m : LMem D W E S),
    Rel2 (Den Θ m) deps (ds.map argVal) → (∀ e ∈ deps, e.cat = .lv) →
    match ensureAll ds with
    | none => ensureAllM (lang Θ moved) deps m = none
    | some os => ∃ es m', ensureAllM (lang Θ moved) deps m = some (es, m') ∧ MadeAll Θ es os m m'
  | [], [], m, _, _ => ⟨[], m, rfl, trivial, by simp, by simp, .nil, rfl, Keeps.refl _ _⟩
  | e :: es, d :: ds, m, hd, hlv => by
    have h1 := ensureLazyM_spec Θ moved e d m hd.1 (hlv e (by simp))
    rcases he : ensureLazy d with _ | o
    · simp only [he] at h1
      simp only [ensureAll, he, ensureAllM, h1]
    · simp only [he] at h1
      obtain ⟨a, m1, h2, mk⟩ := h1
      have k1 := mk.noMoves (by simpa using hlv e (by simp))
      have ih := ensureAllM_spec Θ moved es ds m1 (rel2_den_keeps k1 hd.2 (by simp)) fun e' he' => hlv e' (by simp [he'])
      rcases hes : ensureAll ds with _ | os
      · simp only [hes] at ih
        simp only [ensureAll, he, hes, ensureAllM, h2, ih]
      · simp only [hes] at ih
        obtain ⟨xs, m2, h3, ma⟩ := ih
        simp only [ensureAll, he, hes, ensureAllM, h2, h3]
        have n1 := k1.next
        have n2 := ma.keeps.next
        have hnew := mk.new
        have hlt := mk.lt
        refine ⟨_, _, rfl, ⟨(mk.den .xv false false).keeps ma.keeps (by simp), ma.den⟩, ?_, ?_, ?_, by rw [ma.world, mk.world], k1.trans ma.keeps (by simp)⟩
        · intro x hx
          rcases List.mem_cons.1 hx with rfl | hx
          · exact ⟨rfl, hnew, by simp only; omega⟩
          · obtain ⟨q1, q2, q3⟩ := ma.obj x hx
            exact ⟨q1, by omega, q3⟩
        · intro x hx
          rcases List.mem_cons.1 hx with rfl | hx
          · rfl
          · exact ma.nonconst x hx
        · refine List.pairwise_cons.2 ⟨?_, ma.order⟩
          intro x hx
          have := (ma.obj x hx).2.1
          simp only
          omega

/-- Parameters of a function: new objects, named. -/
theorem params_spec (Θ : Empties D W E S) (moved : MV D W E S → MV D W E S) : ∀ (es : List (Expr LB)) (xs : List (MV D W E S)) (m : LMem D W E S), Rel2 (Den Θ m) es xs → Apart es →
    Rel2 (Den Θ (decayAll (lang Θ moved) es m).2) ((decayAll (lang Θ moved) es m).1.map Expr.named) xs ∧
      (∀ p ∈ (decayAll (lang Θ moved) es m).1.map Expr.named, p.cat = .lv ∧ m.next ≤ p.addr) ∧
      (decayAll (lang Θ moved) es m).2.world = m.world ∧ Keeps (fun a => ∃ e ∈ es, Moves e a) m (decayAll (lang Θ moved) es m).2
  | [], [], m, _, _ => ⟨trivial, by simp [decayAll], rfl, Keeps.refl _ _⟩
  | e :: es, x :: xs, m, hd, hx => by
    rw [Apart, List.pairwise_cons] at hx
    obtain ⟨g, n, v⟩ := initFrom_grows (lang Θ moved) e m hd.1.1
    have hm : ∀ e' ∈ es, ¬ Moves e e'.addr := by
      rintro e' he' ⟨h1, h2, -⟩
      exact hx.1 e' he' (.inl h2) h1
    obtain ⟨i1, i2, i3, i4⟩ := params_spec Θ moved es xs ((lang Θ moved).initFrom e m) (rel2_den_keeps (Keeps.ofGrows g) hd.2 hm) hx.2
    have hn := i4.next
    simp only [decayAll, decayCopy, List.map_cons, Expr.named]
    have hno : ¬ ∃ e' ∈ es, Moves e' m.next := by
      rintro ⟨e', he', h1, -⟩
      obtain ⟨y, -, hy⟩ := rel2_mem hd.2 e' he'
      have := hy.1
      omega
    refine ⟨⟨⟨by simp only; omega, hd.1.2.1, ?_⟩, i1⟩, ?_, by rw [i3, g.world], ?_⟩
    · simp only
      rw [i4.frame _ (by omega) hno, v]
      exact hd.1.2.2
    · intro p hp
      rcases List.mem_cons.1 hp with rfl | hp
      · exact ⟨rfl, Nat.le_refl _⟩
      · obtain ⟨q1, q2⟩ := i2 p hp
        exact ⟨q1, by omega⟩
    · refine ((Keeps.ofGrows g).mono fun a _ h => ⟨e, by simp, h⟩).trans i4 ?_
      rintro a _ ⟨e', he', h⟩
      exact ⟨e', by simp [he'], h⟩

theorem pigroLazyM_spec [CxxData D] (Θ : Empties D W E S) (moved : MV D W E S → MV D W E S) (f : Expr LB) (deps : List (Expr LB)) (u : UFn D W E S)
    (ds : List (DepArg D W E S)) (m : LMem D W E S) (hf : Den Θ m f (.user u)) (hd : Rel2 (Den Θ m) deps (ds.map argVal)) (hx : Apart (f :: deps)) :
    match pigroLazy u ds with
    | none => pigroLazyM (lang Θ moved) f deps m = none
    | some o => ∃ a m', pigroLazyM (lang Θ moved) f deps m = some (⟨Θ.base (.obj o), false, false, .xv, a⟩, m') ∧ Made (f :: deps) (.obj o) m a m' := by
  obtain ⟨p1, p2, p3, p4⟩ := params_spec Θ moved (f :: deps) (.user u :: ds.map argVal) m ⟨hf, hd⟩ hx
  rcases hps : (decayAll (lang Θ moved) (f :: deps) m).1.map Expr.named with _ | ⟨fp, dps⟩
  · rw [hps] at p1
    exact p1.elim
  rw [hps] at p1 p2
  obtain ⟨a1, m1, h1, mk1⟩ := regularizedM_spec Θ moved fp u _ p1.1
  have k1 := mk1.noMoves (by simpa using (p2 fp (by simp)).1)
  have ha := ensureAllM_spec Θ moved dps ds m1 (rel2_den_keeps k1 p1.2 (by simp)) fun e he => (p2 e (by simp [he])).1
  rcases hes : ensureAll ds with _ | os
  · simp only [hes] at ha
    simp only [pigroLazy, hes, pigroLazyM, hps, h1, ha]
  simp only [hes] at ha
  obtain ⟨es, m2, h2, ma⟩ := ha
  have n1 := k1.next
  have n2 := ma.keeps.next
  have hap : Apart ((⟨Θ.base (.func (.regularized u)), false, false, .xv, a1⟩ : Expr LB) :: es) := by
    refine List.pairwise_cons.2 ⟨?_, ma.order.imp fun h _ => by omega⟩
    intro e he _
    have := (ma.obj e he).2.1
    have := mk1.lt
    simp only
    omega
  obtain ⟨a3, m3, h3, mk3⟩ := detailLazyM_spec Θ moved ⟨Θ.base (.func (.regularized u)), false, false, .xv, a1⟩ es (.regularized u) os m2
    ((mk1.den .xv false false).keeps ma.keeps (by simp)) ma.den hap
  obtain ⟨a4, m4, h4, mk4⟩ := unwrapM_spec Θ moved (Expr.named ⟨Θ.base (.obj (detailLazy (.regularized u) os)), false, false, .xv, a3⟩) _ m3 (mk3.den .lv false false)
  obtain ⟨a5, m5, h5, mk5⟩ := unregularizedM_spec Θ moved
    (Expr.named ⟨Θ.base (.obj (.unwrapped (detailLazy (.regularized u) os))), false, false, .xv, a4⟩) _ m4 (mk4.den .lv false false)
  simp only [pigroLazy, hes, pigroLazyM, hps, h1, h2, h3, h4, h5]
  have np := p4.next
  have k2 : Keeps (fun a => ∃ e ∈ f :: deps, Moves e a) m m2 := (p4.trans k1 (by simp)).trans ma.keeps (by simp)
  have k3 : Keeps (fun a => ∃ e ∈ f :: deps, Moves e a) m m3 := k2.trans mk3.keeps (by
    rintro a hlt ⟨e, he, h⟩
    have h := h.1
    have hn1 := mk1.new
    rcases List.mem_cons.1 he with rfl | he
    · simp only at h; omega
    · have := (ma.obj e he).2.1
      omega)
  have k4 := k3.trans (mk4.noMoves (by simp [Expr.named])) (by simp)
  have k5 := k4.trans (mk5.noMoves (by simp [Expr.named])) (by simp)
  have n4 := k4.next
  have := mk5.new
  refine ⟨a5, _, rfl, by omega, mk5.lt, mk5.get, ?_, ?_, k5.killRange _ _ (Nat.le_refl _)⟩
  · simp only [Mem.killRange, mk5.alive]
    rw [decide_eq_false (p := a5 < _) (by omega)]
    simp
  · show m5.world = _
    rw [mk5.world, mk4.world, mk3.world, ma.world, mk1.world, p3]

end Pigro.LM
