import Verif.Spec.SameLayout
import Verif.Proofs.OffsetsExact
import Verif.Proofs.SameOffsets
import Verif.Props.CallableLayout
import Verif.Props.LazyLayout
import Verif.Props.MsLayout
import Verif.Props.MsOffsets
import Verif.Props.MsState
import Verif.Props.State
/-!
# C106: sizes do not depend on the compiler
-/
namespace Pigro.Lay
variable {U T : Type} [DecidableEq U] [DecidableEq T]

/-- **C106**, lazy functions. If the user's types take the same with two compilers, then all lazy functions of them do, at whatever depth, with and without the reordering of bases in overload.h. -/
theorem C106_lazy {Γ : Types U} {Γ' : Ms.Types U} (h : Γ.Plain) (h' : Γ'.Plain) (ha : Alike Γ Γ') (msvc : Bool) (f : U) (res : Option U) (deps : List (LTree U)) :
    (depPart Γ msvc (.lazy f res deps)).layout.size = (Ms.dep Γ' (.lazy f res deps)).size ∧
    (depPart Γ msvc (.lazy f res deps)).layout.align = (Ms.dep Γ' (.lazy f res deps)).align := by
  obtain ⟨-, h1, -⟩ := C55_size h msvc f res deps
  obtain ⟨h2, -⟩ := Ms.C86_lazy_size h' f res deps
  rw [funext ha.layout, funext ha.optional, ← h2] at h1
  simp only [Option.some.injEq, Prod.mk.injEq] at h1
  exact h1

theorem Alike.stored {Γ : Types U} {Γ' : Ms.Types U} (ha : Alike Γ Γ') (p : Ms.Piece U) : Γ.stored p = Γ'.stored p := by
  have key : ∀ {N : Type} (d : Layout N) (d' : Ms.Layout), d.foot = d'.foot → d.empty = d'.empty := by
    intro N d d' h
    cases h1 : d.empty <;> cases h2 : d'.empty <;> simp [Layout.foot, Ms.Layout.foot, h1, h2] at h ⊢
  unfold Types.stored Ms.Types.stored
  congr 1
  cases p with
  | cache res =>
    cases res with
    | none => simp [Types.piece, Ms.Types.piece, Types.cache, Ms.Types.cache, classLayout, Ms.classLayout]
    | some u => exact key _ _ (ha.optional u)
  | function f => exact key _ _ (ha.layout f)
  | value v => exact key _ _ (ha.layout v)
  | dummy => rfl

/-- **C106**, what is stored. The same caches, functions and constants are stored in them, in the same order. -/
theorem C106_pieces {Γ : Types U} {Γ' : Ms.Types U} (h : Γ.Powers) (h' : Γ'.Plain) (h2 : Γ'.Aligned) (ha : Alike Γ Γ') (t : LTree U) :
    (depH Γ t).parts.map (·.2) = (Ms.depObj Γ' t).parts.map (·.2) := by
  rw [(C104_state Γ h t).2, (Ms.C104_state Γ' h' h2 t).2]
  congr 1
  exact funext ha.stored

/-- **C106**, where it is stored. Each of them is at the same offset with both compilers, in lazy functions of lazy functions at whatever depth. -/
theorem C106_offsets {Γ : Types U} {Γ' : Ms.Types U} (h : Γ.Plain) (h' : Γ'.Plain) (h2 : Γ'.Aligned) (ha : Alike Γ Γ') (t : LTree U) :
    (depH Γ t).parts = (Ms.depObj Γ' t).parts := (dep_twin h h' h2 ha t).parts

omit [DecidableEq U] [DecidableEq T] in
theorem alike_struct {N : Type} {ds : List (Layout N)} {ds' : List Ms.Layout} (ha : ds.map Layout.foot = ds'.map Ms.Layout.foot) :
    structSize (solid ds) = (structOf (ds'.map Ms.Layout.foot)).size := by
  rw [← ha, structOf_foot]
  split
  · rename_i he
    rw [(solid_empty ds).2 he]
    rfl
  · rfl

/-- **C106**, tuples, in full: `compressed_tuple`s of elements that take the same take the same. True if the elements contain nothing of this library; what is missing are elements that do, see `C106_clash`. -/
theorem C106_tuple_partial (msvc : Bool) (parts : List (Part T)) (ds : List Ms.Layout) (ha : (parts.map (·.layout)).map Layout.foot = ds.map Ms.Layout.foot)
    (hp : ∀ p ∈ parts, p.layout.empty = true ∨ p.layout.Proper) (hplain : ∀ p ∈ parts, ∀ e ∈ p.layout.empties, ∃ t, e.1 = .user t) (h' : ∀ d ∈ ds, Ms.AnyType d) :
    (tupleLayout msvc parts).size = (Ms.tuple true ds).size := by
  rw [(C32_size_plain msvc parts hp hplain).1, (Ms.C86_tuple_size ds h').1, alike_struct ha]

/-- **C106**, bound callables, likewise. -/
theorem C106_bound_partial (msvc back : Bool) (f t : Part T) (f' t' : Ms.Layout) (haf : f.layout.foot = f'.foot) (hat : t.layout.foot = t'.foot)
    (hf : f.layout.empty = true ∨ f.layout.Proper) (ht : t.layout.empty = true ∨ t.layout.Proper) (hf' : Ms.AnyType f') (ht' : Ms.AnyType t')
    (hownf : (.constGet 0 f.ty, 0) ∉ f.layout.empties) (hownt : (.constGet 1 t.ty, 0) ∉ t.layout.empties)
    (hclash : ∀ d, [f, t].find? (! ·.layout.empty) = some d → (.generic back f.ty t.ty, 0) ∉ d.layout.empties ∧
      (f.layout.empty = true → (.emptyElem 0 f.ty, 0) ∉ d.layout.empties) ∧
      (t.layout.empty = true → (.emptyElem 1 t.ty, 0) ∉ d.layout.empties)) :
    (boundLayout msvc back f t).size = (Ms.bound true f' t').size := by
  rw [(C32_bound_size_partial msvc back f t hf ht hownf hownt hclash).1, (Ms.C86_bound_size f' t' hf' ht').1]
  exact alike_struct (ds' := [f', t']) (by simp [haf, hat])

/-- **C106**, tuples: also the offsets of the elements, under the condition of `C32_size_partial`. -/
theorem C106_tuple_offsets_partial (parts : List (Part T)) (ds : List Ms.Layout) (ha : (parts.map (·.layout)).map Layout.foot = ds.map Ms.Layout.foot)
    (hp : ∀ p ∈ parts, p.layout.empty = true ∨ p.layout.Proper)
    (hown : ∀ (i : Nat) (p : Part T), parts[i]? = some p → (.constGet i p.ty, 0) ∉ p.layout.empties)
    (hclash : ∀ f, parts.find? (! ·.layout.empty) = some f → ∀ (i : Nat) (q : Part T), parts[i]? = some q → q.layout.empty = true →
      (.emptyElem i q.ty, 0) ∉ f.layout.empties)
    (h' : ∀ d ∈ ds, Ms.AnyType d) (h2 : ∀ d ∈ ds, d.empty = false → Ms.Pow2 d.align) (i : Nat) : tupleAt parts i = Ms.tupleAt true ds i := by
  rw [tupleAt_exact parts hp hown hclash, (Ms.C102_tuple ds h' h2).1, ha]

/-- **C106**, bound callables: also the offsets of the callable and of the tuple. -/
theorem C106_bound_offsets_partial (back : Bool) (f t : Part T) (f' t' : Ms.Layout) (haf : f.layout.foot = f'.foot) (hat : t.layout.foot = t'.foot)
    (hf : f.layout.empty = true ∨ f.layout.Proper) (ht : t.layout.empty = true ∨ t.layout.Proper) (hf' : Ms.AnyType f') (ht' : Ms.AnyType t')
    (hf2 : f'.empty = false → Ms.Pow2 f'.align) (ht2 : t'.empty = false → Ms.Pow2 t'.align)
    (hownf : (.constGet 0 f.ty, 0) ∉ f.layout.empties) (hownt : (.constGet 1 t.ty, 0) ∉ t.layout.empties)
    (hclash : ∀ d, [f, t].find? (! ·.layout.empty) = some d → (.generic back f.ty t.ty, 0) ∉ d.layout.empties ∧
      (f.layout.empty = true → (.emptyElem 0 f.ty, 0) ∉ d.layout.empties) ∧
      (t.layout.empty = true → (.emptyElem 1 t.ty, 0) ∉ d.layout.empties)) (i : Nat) : boundAt back f t i = Ms.boundAt true f' t' i := by
  rw [boundAt_exact back f t hf ht hownf hownt hclash, (Ms.C102_bound f' t' hf' ht' hf2 ht2).1, haf, hat]

/-- **C106**, `overload`, if the callables do not clash. -/
theorem C106_overload_partial (msvc : Bool) (fs : List (Part T)) (ds : List Ms.Layout) (ha : (fs.map (·.layout)).map Layout.foot = ds.map Ms.Layout.foot)
    (hc : ∀ p ∈ fs, Callable p) (hn : NoClash fs) (h' : ∀ d ∈ ds, Ms.Callable d) : (overloadOf msvc fs).size = (Ms.overload true ds).size := by
  rw [(C65_overload_size msvc fs hc hn).1, (Ms.C86_overload_size ds h').1, alike_struct ha]

/-- **C106**, `overload`: also the offsets of the callables that are not empty, although the base classes are in another order with Microsoft's compiler (overload.h:15-33). -/
theorem C106_overload_offsets_partial (fs : List (Part T)) (ds : List Ms.Layout) (ha : (fs.map (·.layout)).map Layout.foot = ds.map Ms.Layout.foot)
    (hc : ∀ p ∈ fs, Callable p) (hn : NoClash fs) (h' : ∀ d ∈ ds, Ms.Callable d) (i : Nat) (p : Part T) (hi : fs[i]? = some p) (he : p.layout.empty = false) :
    (offsets .start (fs.map (·.layout)))[i]? = (Ms.overloadAt true ds).lookup i := by
  have hb : ∀ d ∈ fs.map (·.layout), d.Base := by
    intro d hd
    obtain ⟨q, hq, rfl⟩ := List.mem_map.1 hd
    rcases (hc q hq).base with h | h
    · exact .inl h
    · exact .inr ⟨h, (hc q hq).nv⟩
  have hi' : (fs.map (·.layout))[i]? = some p.layout := by simp [hi]
  have h1 := offsets_exact (fs.map (·.layout)) [] .start start_placed hb (by rw [List.nil_append]; exact noClash_fits fs hn) i p.layout hi' he
  rw [List.nil_append] at h1
  rw [h1, ← structAt_solid _ i p.layout hi' he, ha]
  have h2 : (ds.map Ms.Layout.foot)[i]? = some p.layout.foot := by rw [← ha]; simp [hi]
  rw [List.getElem?_map, Option.map_eq_some_iff] at h2
  obtain ⟨d, hd, hf⟩ := h2
  have hde : d.empty = false := by
    rw [Bool.eq_false_iff]
    intro hc
    rw [Ms.foot_eq_none.2 hc] at hf
    simp [Layout.foot, he] at hf
  exact (Ms.C102_overload ds h' i d hd hde).symm

/-- C106 is false of `compressed_tuple{ f, 5 } >> f` with an empty `f`: 8 bytes with the one compiler, 4 with the other, although `f` and the tuple take the same. -/
theorem C106_clash (back : Bool) : ∃ (f t : Part String) (f' t' : Ms.Layout), f.layout.foot = f'.foot ∧ t.layout.foot = t'.foot ∧ t.layout = tupleLayout false [f, exPart "int" 4] ∧
    t' = Ms.tuple true [f', Ms.scalar 4] ∧ (boundLayout false back f t).size = 8 ∧ (Ms.bound true f' t').size = 4 := by
  refine ⟨exEmpty "F", ⟨"T", tupleLayout false [exEmpty "F", exPart "int" 4]⟩, Ms.lam, Ms.tuple true [Ms.lam, Ms.scalar 4], by decide, by decide, rfl, rfl, (C32_clash back).2.2.2, by decide⟩

/-! ### Examples -/

namespace Demo106

/-- The types of the examples, with Microsoft's compiler. -/
def types : Ms.Types ExU where
  layout
    | .int => Ms.exTypes.layout .int
    | .lam0 => Ms.exTypes.layout .lam0
    | .lamInt => Ms.exTypes.layout .lamInt
    | .lamRef => Ms.exTypes.layout .lamRef
    | .string => Ms.exTypes.layout .string
  optional
    | .int => Ms.exTypes.optional .int
    | .lam0 => Ms.exTypes.optional .lam0
    | .lamInt => Ms.exTypes.optional .lamInt
    | .lamRef => Ms.exTypes.optional .lamRef
    | .string => Ms.exTypes.optional .string

theorem alike : Alike exTypes types := ⟨fun u => by cases u <;> decide, fun u => by cases u <;> decide⟩

theorem types_plain : types.Plain := ⟨fun u => by cases u <;> decide, fun u => by cases u <;> decide⟩

/-- `lazy(f, "..."s, lazy(g, 1), [&] { return ...; })`: 120 bytes with both. -/
example : let t : LTree ExU := .lazy .lamInt (some .string) [.value .string, .lazy .lam0 (some .int) [.value .int], .function .lamRef .int]
    (Ms.dep types t).size = 120 := by
  intro t
  rw [← (C106_lazy exTypes_plain types_plain alike false _ _ _).1]
  exact (C55_size exTypes_plain false _ _ _).2.2

theorem powers : exTypes.Powers where
  layout u _ := by
    cases u
    · exact ⟨2, rfl⟩
    · exact ⟨0, rfl⟩
    · exact ⟨2, rfl⟩
    · exact ⟨3, rfl⟩
    · exact ⟨3, rfl⟩
  optional u := by
    cases u
    · exact ⟨⟨2, rfl⟩, rfl⟩
    · exact ⟨⟨0, rfl⟩, rfl⟩
    · exact ⟨⟨2, rfl⟩, rfl⟩
    · exact ⟨⟨3, rfl⟩, rfl⟩
    · exact ⟨⟨3, rfl⟩, rfl⟩

theorem types_aligned : types.Aligned where
  layout u _ := by
    cases u
    · exact ⟨2, rfl⟩
    · exact ⟨0, rfl⟩
    · exact ⟨2, rfl⟩
    · exact ⟨3, rfl⟩
    · exact ⟨3, rfl⟩
  optional u := by
    cases u
    · exact ⟨2, rfl⟩
    · exact ⟨0, rfl⟩
    · exact ⟨2, rfl⟩
    · exact ⟨3, rfl⟩
    · exact ⟨3, rfl⟩

/-- `lazy(f, lazy(g, 1), 2)`: two caches, the captured `int` of `f`, two constants; nothing of `g`. -/
example : (Ms.depObj types (.lazy .lamInt (some .int) [.lazy .lam0 (some .int) [.value .int], .value .int])).parts.map (·.2) =
    [.cache (some .int), .function .lamInt, .cache (some .int), .value .int, .value .int] := by
  rw [← C106_pieces powers types_plain types_aligned alike, (C104_state exTypes powers _).2]
  decide

/-- `lazy(f, lazy(g, 1), 2)`: the offsets of the two caches (`std::optional<int>`), the captured `int` and the two constants. -/
example : let t : LTree ExU := .lazy .lamInt (some .int) [.lazy .lam0 (some .int) [.value .int], .value .int]
    (depH exTypes t).parts = (Ms.depObj types t).parts ∧
    (Ms.depObj types t).parts = [(0, .cache (some .int)), (8, .function .lamInt), (12, .cache (some .int)), (20, .value .int), (24, .value .int)] :=
  ⟨C106_offsets exTypes_plain types_plain types_aligned alike _, by decide +kernel⟩

/-- `compressed_tuple<E, char, int>`: 8 bytes. -/
example : (Ms.tuple true [Ms.lam, Ms.scalar 1, Ms.scalar 4]).size = 8 ∧ (tupleLayout false [exEmpty "E", exPart "char" 1, exPart "int" 4]).size = 8 := by
  have h := C106_tuple_partial false [exEmpty "E", exPart "char" 1, exPart "int" 4] [Ms.lam, Ms.scalar 1, Ms.scalar 4] (by decide) (by decide) (by
    intro p hp e he
    simp only [List.mem_cons, List.not_mem_nil, or_false] at hp
    rcases hp with rfl | rfl | rfl
    · simp [exEmpty, classLayout] at he
      exact ⟨"E", by rw [he]⟩
    · simp [exPart, scalar] at he
    · simp [exPart, scalar] at he) (by decide)
  exact ⟨by decide, h.trans (by decide)⟩

/-- `compressed_tuple{ 5 } >> f`: 4 bytes. -/
example : (boundLayout false false (exEmpty "F") (exPart "int" 4)).size = (Ms.bound true Ms.lam (Ms.scalar 4)).size :=
  C106_bound_partial false false (exEmpty "F") (exPart "int" 4) Ms.lam (Ms.scalar 4) (by decide) (by decide) (by decide) (by decide) (by decide) (by decide) (by decide) (by decide) (by
    intro d hd
    have : d = exPart "int" 4 := by
      simp [exEmpty, exPart, classLayout, scalar] at hd
      exact hd.symm
    subst this
    decide)

/-- `compressed_tuple<E, char, int>`: the `char` is at 0 and the `int` at 4. -/
example (i : Nat) : tupleAt [exEmpty "E", exPart "char" 1, exPart "int" 4] i = Ms.tupleAt true [Ms.lam, Ms.scalar 1, Ms.scalar 4] i ∧
    tupleAt [exEmpty "E", exPart "char" 1, exPart "int" 4] 2 = some 4 := by
  refine ⟨C106_tuple_offsets_partial _ _ (by decide) (by decide) ?_ ?_ (by decide) ?_ i, by decide⟩
  · intro i p hi hm
    have hp := List.mem_of_getElem? hi
    simp only [List.mem_cons, List.not_mem_nil, or_false] at hp
    rcases hp with rfl | rfl | rfl <;> simp [exEmpty, exPart, classLayout, scalar] at hm
  · intro f hf j q hj _ hm
    simp [exEmpty, exPart, classLayout, scalar] at hf
    subst hf
    simp at hm
  · intro d hd _
    simp only [List.mem_cons, List.not_mem_nil, or_false] at hd
    rcases hd with rfl | rfl | rfl
    · exact ⟨0, rfl⟩
    · exact ⟨0, rfl⟩
    · exact ⟨2, rfl⟩

/-- `compressed_tuple{ 5 } >> f`: the `int` is at 0. -/
example (i : Nat) : boundAt false (exEmpty "F") (exPart "int" 4) i = Ms.boundAt true Ms.lam (Ms.scalar 4) i ∧ boundAt false (exEmpty "F") (exPart "int" 4) 1 = some 0 := by
  refine ⟨C106_bound_offsets_partial false _ _ _ _ (by decide) (by decide) (by decide) (by decide) (by decide) (by decide) (fun _ => ⟨0, rfl⟩) (fun _ => ⟨2, rfl⟩) (by decide) (by decide) ?_ i, by decide⟩
  intro d hd
  have : d = exPart "int" 4 := by
    simp [exEmpty, exPart, classLayout, scalar] at hd
    exact hd.symm
  subst this
  decide

/-- `overload{ f, [c], [i] }`, with an empty `f`, and captures of 1 and 4 bytes: the last one is at 4. -/
example : (offsets .start ([exEmpty "f", exPart "[c]" 1, exPart "[i]" 4].map (·.layout)))[2]? = (Ms.overloadAt true [Ms.lam, Ms.lamOf [Ms.scalar 1], Ms.lamOf [Ms.scalar 4]]).lookup 2 ∧
    (Ms.overloadAt true [Ms.lam, Ms.lamOf [Ms.scalar 1], Ms.lamOf [Ms.scalar 4]]).lookup 2 = some 4 := by
  refine ⟨C106_overload_offsets_partial _ _ (by decide) ?_ ?_ (by decide) 2 _ rfl rfl, by decide⟩
  · intro p hp
    simp only [List.mem_cons, List.not_mem_nil, or_false] at hp
    rcases hp with rfl | rfl | rfl
    · exact ⟨by decide, .inl (by decide)⟩
    · exact ⟨by decide, .inr (by decide)⟩
    · exact ⟨by decide, .inr (by decide)⟩
  · simp [NoClash, exEmpty, exPart, classLayout, scalar]

end Demo106

end Pigro.Lay
