import Verif.Proofs.Nested
import Verif.Props.SameLayout
/-!
# C107: lazy functions are laid out like nested structs
-/
namespace Pigro.Lay
variable {U : Type}

/-- **C107**, with Microsoft's compiler. A lazy function takes what `struct { cache; struct { f; dependencies }; }` without the members of empty types takes, and everything in it is at
the offset at which it is there. -/
theorem C107_ms {Γ' : Ms.Types U} (h : Γ'.Plain) (h2 : Γ'.Aligned) (t : LTree U) :
    (Ms.dep Γ' t).foot = t.foot (fun u => (Γ'.layout u).foot) (fun u => (Γ'.optional u).foot) (some (4, 4)) ∧
    (Ms.depObj Γ' t).parts = t.places (fun u => (Γ'.layout u).foot) (fun u => (Γ'.optional u).foot) (some (4, 4)) := by
  have := dep_nest h h2 t
  simp only [entry, Prod.mk.injEq, Ms.depObj_layout] at this
  exact this

/-- The same sizes and alignments, with Microsoft's compiler. -/
def twinLayout {N : Type} (d : Layout N) : Ms.Layout := ⟨d.size, d.size, d.align, d.empty, false, false⟩

/-- Types taking the same. -/
def twinTypes (Γ : Types U) : Ms.Types U := ⟨fun u => twinLayout (Γ.layout u), fun u => twinLayout (Γ.optional u)⟩

variable [DecidableEq U]

/-- **C107**, with the Itanium C++ ABI, for types containing nothing of this library. -/
theorem C107_itanium {Γ : Types U} (h : Γ.Plain) (h2 : Γ.Powers) (t : LTree U) :
    (depPart Γ false t).layout.foot = t.foot (fun u => (Γ.layout u).foot) (fun u => (Γ.optional u).foot) (some (4, 4)) ∧
    (depH Γ t).parts = t.places (fun u => (Γ.layout u).foot) (fun u => (Γ.optional u).foot) (some (4, 4)) := by
  refine ⟨(depPart_spec h false t).2.2.2, ?_⟩
  have hp : (twinTypes Γ).Plain := ⟨fun u => (h.layout u).imp id fun hp => ⟨hp.1, hp.2.1, hp.2.2.1, hp.2.2.2.1⟩,
    fun u => have hp := h.optional u; ⟨hp.1, hp.2.1, hp.2.2.1, hp.2.2.2.1⟩⟩
  have ha : (twinTypes Γ).Aligned := ⟨fun u he => h2.layout u he, fun u => (h2.optional u).1⟩
  rw [C106_offsets h hp ha ⟨fun u => rfl, fun u => rfl⟩ t, (C107_ms hp ha t).2]
  rfl

omit [DecidableEq U] in
theorem places_head (ty opt : U → Foot) (dummy : Foot) (f : U) (res : Option U) (deps : List (LTree U)) (h : (cacheFoot opt res).isSome = true) :
    ∃ rest, (LTree.lazy f res deps).places ty opt dummy = (0, .cache res) :: rest := by
  obtain ⟨⟨s, a⟩, hc⟩ := Option.isSome_iff_exists.1 h
  have h0 : ∀ ms : List Foot, Ms.structAt (some (s, a) :: ms) 0 = some 0 := by
    intro ms
    simp [Ms.structAt, membersEnd, padding_zero 0 _ (Nat.dvd_zero _)]
  rw [LTree.places, hc]
  simp only [nest, List.map_cons, List.zipIdx_cons, List.flatMap_cons, h0, own, Option.isSome_some, if_true, shifted, List.map_nil, List.cons_append, List.nil_append]
  exact ⟨_, rfl⟩

/-- **C107**: with both compilers a lazy function begins with its cache. -/
theorem C107_cache_first {Γ : Types U} (h : Γ.Plain) (h2 : Γ.Powers) {Γ' : Ms.Types U} (h' : Γ'.Plain) (h2' : Γ'.Aligned) (f : U) (res : Option U) (deps : List (LTree U)) :
    (∃ rest, (depH Γ (.lazy f res deps)).parts = (0, .cache res) :: rest) ∧ ∃ rest, (Ms.depObj Γ' (.lazy f res deps)).parts = (0, .cache res) :: rest := by
  rw [(C107_itanium h h2 _).2, (C107_ms h' h2' _).2]
  constructor <;> apply places_head
  · cases res with
    | none => rfl
    | some u => simp [cacheFoot, Layout.foot, (h.optional u).1]
  · cases res with
    | none => rfl
    | some u => simp [cacheFoot, Ms.Layout.foot, (h'.optional u).1]

omit [DecidableEq U] in
theorem structOf_eq_none {ms : List Foot} {F : Foot} (h : structOf (F :: ms) = none) : ∀ m ∈ ms, m = none := by
  intro m hm
  rcases m with _ | x
  · rfl
  · exfalso
    have : x ∈ (F :: ms).filterMap id := List.mem_filterMap.2 ⟨some x, List.mem_cons_of_mem _ hm, rfl⟩
    simp only [structOf] at h
    split at h
    · rename_i he
      rw [he] at this
      simp at this
    · simp at h

omit [DecidableEq U] in
theorem foots_none (ty opt : U → Foot) (dummy : Foot) : ∀ (ts : List (LTree U)) (i : Nat) (t : LTree U), ts[i]? = some t →
    (∀ m ∈ LTree.foots ty opt dummy ts, m = none) → t.foot ty opt dummy = none
  | [], i, t, h, _ => by simp at h
  | x :: xs, 0, t, h, hn => by
    simp only [List.getElem?_cons_zero, Option.some.injEq] at h
    subst h
    exact hn _ (by rw [LTree.foots]; simp)
  | x :: xs, i + 1, t, h, hn => foots_none ty opt dummy xs i t (by simpa using h) (fun m hm => hn m (by rw [LTree.foots]; simp [hm]))

omit [DecidableEq U] in
theorem nest_inside (ms : List (Foot × List (Nat × Ms.Piece U))) (i : Nat) (F : Foot) (ps : List (Nat × Ms.Piece U)) (hi : ms[i]? = some (F, ps)) (h : F = none → ps = []) :
    ∃ off, (ps.map fun r => (off + r.1, r.2)) <:+: nest ms := by
  rcases F with _ | ⟨s, a⟩
  · rw [h rfl]
    exact ⟨0, List.nil_infix⟩
  · have hi' : (ms.map (·.1))[i]? = some (some (s, a)) := by simp [hi]
    obtain ⟨off, hoff⟩ : ∃ off, Ms.structAt (ms.map (·.1)) i = some off := by
      simp only [Ms.structAt, hi']
      exact ⟨_, rfl⟩
    have hm : ((some (s, a), ps), i) ∈ ms.zipIdx := List.mk_mem_zipIdx_iff_getElem?.2 hi
    obtain ⟨l, r, hlr⟩ := List.append_of_mem hm
    refine ⟨off, ((l.flatMap fun x => shifted x.1.2 (Ms.structAt (ms.map (·.1)) x.2))), (r.flatMap fun x => shifted x.1.2 (Ms.structAt (ms.map (·.1)) x.2)), ?_⟩
    rw [nest, hlr, List.flatMap_append, List.flatMap_cons, hoff, shifted, List.append_assoc]

omit [DecidableEq U] in
theorem placesList_get (ty opt : U → Foot) (dummy : Foot) : ∀ (ts : List (LTree U)) (i : Nat) (t : LTree U), ts[i]? = some t →
    (LTree.placesList ty opt dummy ts)[i]? = some (t.foot ty opt dummy, t.places ty opt dummy)
  | [], i, t, h => by simp at h
  | x :: xs, 0, t, h => by
    simp only [List.getElem?_cons_zero, Option.some.injEq] at h
    subst h
    rw [LTree.placesList]; rfl
  | x :: xs, i + 1, t, h => by
    rw [LTree.placesList, List.getElem?_cons_succ]
    exact placesList_get ty opt dummy xs i t (by simpa using h)

/-- **C107**: what is in a dependency is in the lazy function too, all of it in one run, at the same distances from one another. -/
theorem C107_inside {Γ : Types U} (h : Γ.Plain) (h2 : Γ.Powers) (f : U) (res : Option U) (deps : List (LTree U)) (i : Nat) (t : LTree U) (hi : deps[i]? = some t) :
    ∃ off, ((depH Γ t).parts.map fun r => (off + r.1, r.2)) <:+: (depH Γ (.lazy f res deps)).parts := by
  have he : t.foot (fun u => (Γ.layout u).foot) (fun u => (Γ.optional u).foot) (some (4, 4)) = none →
      t.places (fun u => (Γ.layout u).foot) (fun u => (Γ.optional u).foot) (some (4, 4)) = [] := by
    intro hn
    rw [← (C107_itanium h h2 t).2]
    refine (depH_ok h2 t).1.empty ?_
    rw [depH_part, ← foot_empty, (C107_itanium h h2 t).1, hn]
  rw [(C107_itanium h h2 t).2, (C107_itanium h h2 (.lazy f res deps)).2, LTree.places]
  generalize hp : t.places (fun u => (Γ.layout u).foot) (fun u => (Γ.optional u).foot) (some (4, 4)) = ps at he
  have hin := nest_inside (((Γ.layout f).foot, own (Γ.layout f).foot (.function f)) ::
    LTree.placesList (fun u => (Γ.layout u).foot) (fun u => (Γ.optional u).foot) (some (4, 4)) deps) (i + 1) _ ps
    (by rw [List.getElem?_cons_succ, placesList_get _ _ _ deps i t hi, hp]) he
  obtain ⟨q, hq⟩ := hin
  by_cases hps : ps = []
  · exact ⟨0, by rw [hps]; exact List.nil_infix⟩
  · have hne : structOf ((Γ.layout f).foot :: LTree.foots (fun u => (Γ.layout u).foot) (fun u => (Γ.optional u).foot) (some (4, 4)) deps) ≠ none := by
      intro hn
      have hall := foots_none _ _ _ deps i t hi (structOf_eq_none hn)
      exact hps (he hall)
    obtain ⟨o, ho⟩ := nest_inside [(cacheFoot (fun u => (Γ.optional u).foot) res, own (cacheFoot (fun u => (Γ.optional u).foot) res) (.cache res)),
      (structOf ((Γ.layout f).foot :: LTree.foots (fun u => (Γ.layout u).foot) (fun u => (Γ.optional u).foot) (some (4, 4)) deps),
        nest (((Γ.layout f).foot, own (Γ.layout f).foot (.function f)) ::
          LTree.placesList (fun u => (Γ.layout u).foot) (fun u => (Γ.optional u).foot) (some (4, 4)) deps))] 1 _ _ rfl (fun hn => absurd hn hne)
    refine ⟨o + q, List.IsInfix.trans ?_ ho⟩
    obtain ⟨l, r, hlr⟩ := hq
    refine ⟨l.map fun r => (o + r.1, r.2), r.map fun r => (o + r.1, r.2), ?_⟩
    rw [← hlr, List.map_append, List.map_append, List.map_map]
    congr 2
    apply List.map_congr_left
    intro x _
    simp [Nat.add_assoc]

/-! ### Examples -/

namespace Demo107
open Demo106

/-- `lazy(f, lazy(g, 1), "..."s, [&] { return ...; })`, where `f` captures an `int` and `g` nothing. -/
def tree : LTree ExU := .lazy .lamInt (some .int) [.lazy .lam0 (some .int) [.value .int], .value .string, .function .lamRef .int]

/-- In it, after its own cache and the `int` captured: the cache of the inner function and its constant, the string, and what is made of the plain function. -/
example : (depH exTypes tree).parts = [(0, .cache (some .int)), (8, .function .lamInt), (12, .cache (some .int)), (20, .value .int), (24, .value .string),
    (56, .cache (some .int)), (64, .function .lamRef), (72, .dummy)] := by
  rw [(C107_itanium exTypes_plain powers tree).2]
  decide +kernel

example : (Ms.depObj types tree).parts = (depH exTypes tree).parts := by
  rw [(C107_itanium exTypes_plain powers tree).2, (C107_ms types_plain types_aligned tree).2]
  decide +kernel

example : ∃ rest, (depH exTypes (.lazy .lamInt none [tree, tree])).parts = (0, .cache none) :: rest :=
  (C107_cache_first exTypes_plain powers types_plain types_aligned _ _ _).1

/-- The string and both caches of `tree`, as the second dependency of another function. -/
example : ∃ off, ((depH exTypes tree).parts.map fun r => (off + r.1, r.2)) <:+: (depH exTypes (.lazy .lam0 none [.value .int, tree])).parts :=
  C107_inside exTypes_plain powers _ _ _ 1 tree rfl

end Demo107

end Pigro.Lay
