import Verif.Spec.Nested
import Verif.Proofs.SameOffsets
/-!
# Lazy functions are laid out like nested structs
-/
namespace Pigro.Lay
variable {U : Type}

/-- What an object takes and what is in it. -/
def entry (o : Ms.Obj U) : Foot × List (Nat × Ms.Piece U) := (o.layout.foot, o.parts)

theorem shifted_zero (ps : List (Nat × Ms.Piece U)) : shifted ps (some 0) = ps := by
  simp [shifted]

theorem nest_one (F : Foot) (ps : List (Nat × Ms.Piece U)) (h : F = none → ps = []) : nest [(F, ps)] = ps := by
  rcases F with _ | ⟨s, a⟩
  · rw [h rfl]; rfl
  · have : Ms.structAt [some (s, a)] 0 = some 0 := by
      simp [Ms.structAt, membersEnd, padding_zero 0 _ (Nat.dvd_zero _)]
    simp [nest, this, shifted]

theorem nest_second (F : Foot) (ps : List (Nat × Ms.Piece U)) (h : F = none → ps = []) : nest [(none, []), (F, ps)] = ps := by
  rcases F with _ | ⟨s, a⟩
  · rw [h rfl]; rfl
  · have : Ms.structAt [none, some (s, a)] 1 = some 0 := by
      simp [Ms.structAt, membersEnd, padding_zero 0 _ (Nat.dvd_zero _)]
    have h0 : Ms.structAt [none, some (s, a)] 0 = none := rfl
    simp [nest, this, h0, shifted]

theorem nest_first (F : Foot) (ps : List (Nat × Ms.Piece U)) (h : F = none → ps = []) : nest [(F, ps), (none, [])] = ps := by
  rcases F with _ | ⟨s, a⟩
  · rw [h rfl]; rfl
  · have : Ms.structAt [some (s, a), none] 0 = some 0 := by
      simp [Ms.structAt, membersEnd, padding_zero 0 _ (Nat.dvd_zero _)]
    have h0 : Ms.structAt [some (s, a), none] 1 = none := rfl
    simp [nest, this, h0, shifted]

theorem flat_nest (os : List (Ms.Obj U)) (offs : Nat → Option Nat) (h : ∀ i, offs i = Ms.structAt ((os.map (·.layout)).map Ms.Layout.foot) i) :
    Ms.flat offs os = nest (os.map entry) := by
  have h1 : (os.map entry).map (·.1) = (os.map (·.layout)).map Ms.Layout.foot := by rw [List.map_map, List.map_map]; rfl
  simp only [Ms.flat, nest, h1]
  rw [List.zipIdx_map, List.flatMap_map]
  congr 1
  funext x
  rw [h]
  dsimp only [Prod.map, entry, id]
  cases Ms.structAt ((os.map (·.layout)).map Ms.Layout.foot) x.2 <;> rfl

theorem entry_none {Γ' : Ms.Types U} {o : Ms.Obj U} (h : o.OK Γ') : o.layout.foot = none → o.parts = [] := fun hf => h.empty (Ms.foot_eq_none.1 hf)

theorem tuple_nest {Γ' : Ms.Types U} {os : List (Ms.Obj U)} (h : ∀ o ∈ os, o.OK Γ') : (Ms.tupleObj os).parts = nest (os.map entry) := by
  refine flat_nest os _ (Ms.C102_tuple _ ?_ ?_).1
  · intro d hd
    obtain ⟨o, ho, rfl⟩ := List.mem_map.1 hd
    exact (h o ho).any
  · intro d hd
    obtain ⟨o, ho, rfl⟩ := List.mem_map.1 hd
    exact (h o ho).pow

theorem bound_nest {Γ' : Ms.Types U} {f t : Ms.Obj U} (hf : f.OK Γ') (ht : t.OK Γ') : (Ms.boundObj f t).parts = nest [entry f, entry t] :=
  flat_nest [f, t] _ (Ms.C102_bound _ _ hf.any ht.any hf.pow ht.pow).1

theorem bindLam_nest {Γ' : Ms.Types U} {os : List (Ms.Obj U)} (h : ∀ o ∈ os, o.OK Γ') : (Ms.bindLamObj os).parts = nest (os.map entry) := by
  have ht := (Ms.tupleObj_ok h).1
  rw [Ms.bindLamObj, bound_nest Ms.lamObj_ok ht, ← tuple_nest h]
  exact nest_second _ _ (entry_none ht)

theorem bindLam_nest_one {Γ' : Ms.Types U} {o : Ms.Obj U} (h : o.OK Γ') : (Ms.bindLamObj [o]).parts = o.parts := by
  rw [bindLam_nest (Γ' := Γ') (by simpa using h)]
  exact nest_one _ _ (entry_none h)

theorem lazyValue_nest {Γ' : Ms.Types U} {o : Ms.Obj U} (h : o.OK Γ') : (Ms.lazyValueObj o).parts = o.parts := by
  rw [Ms.lazyValueObj, bindLam_nest (Γ' := Γ') (by
    intro x hx
    simp only [List.mem_cons, List.not_mem_nil, or_false] at hx
    rcases hx with rfl | rfl
    · exact h
    · exact Ms.lamObj_ok)]
  exact nest_first _ _ (entry_none h)

theorem unwrap_nest {Γ' : Ms.Types U} {f : Ms.Obj U} (h : f.OK Γ') (he : f.layout.empty = false) : (Ms.unwrapObj f).parts = f.parts := by
  obtain ⟨g1, g2⟩ := Ms.bindLam_one h.any
  have hbe : (Ms.bindLam [f.layout]).empty = false := by
    rw [Bool.eq_false_iff]
    intro hc
    rw [Ms.foot_eq_none.2 hc] at g2
    rw [Ms.foot_eq_none.1 g2.symm] at he; simp at he
  have hgood : ∀ d ∈ [Ms.bindLam [f.layout], Ms.lam], Ms.Good d := by
    intro d hd
    simp only [List.mem_cons, List.not_mem_nil, or_false] at hd
    rcases hd with rfl | rfl
    · exact g1
    · exact .inl Ms.lam_zero
  have hat : (Ms.overloadAt true [Ms.bindLam [f.layout], Ms.lam]).lookup 0 = some 0 := by
    rw [Ms.overloadAt_spec hgood (i := 0) rfl hbe, Ms.structAt_some (d := Ms.bindLam [f.layout]) rfl hbe]
    simp [Ms.solid, membersEnd, padding_zero 0 _ (Nat.dvd_zero _)]
  have hlay : (Ms.bindLamObj [f]).layout = Ms.bindLam [f.layout] := rfl
  simp only [Ms.unwrapObj, hlay, hat, Ms.baseOffset_start, Nat.zero_add, bindLam_nest_one h]
  simp

theorem detail_nest {Γ' : Ms.Types U} {c f : Ms.Obj U} {ds : List (Ms.Obj U)} (hc : c.OK Γ') (he : c.layout.empty = false) (h : ∀ o ∈ f :: ds, o.OK Γ') :
    (Ms.detailLazyObj c f ds).parts = nest [entry c, (structOf ((f :: ds).map (·.layout.foot)), nest ((f :: ds).map entry))] := by
  have ht := (Ms.tupleObj_ok h).1
  have h1 : entry (Ms.lamOfObj c) = entry c := by
    have := (Ms.lamOf_one (hc.any.resolve_left (by simp [he]))).2
    simp only [entry, Ms.lamOfObj, Ms.memberOffset_start, Nat.zero_add, this]
    simp
  have h2 : entry (Ms.tupleObj (f :: ds)) = (structOf ((f :: ds).map (·.layout.foot)), nest ((f :: ds).map entry)) := by
    have h3 := (Ms.tuple_spec ((f :: ds).map (·.layout)) (by
      intro d hd
      obtain ⟨o, ho, rfl⟩ := List.mem_map.1 hd
      exact (h o ho).any)).2
    rw [List.map_map] at h3
    rw [entry, tuple_nest h]
    exact congrArg (·, _) h3
  rw [Ms.detailLazyObj, bound_nest (Ms.lamOfObj_ok hc he).1 ht, h1, h2]

theorem leaf_nest {Γ' : Ms.Types U} (p : Ms.Piece U) : entry (Ms.leaf Γ' p) = ((Γ'.piece p).foot, own (Γ'.piece p).foot p) := by
  cases h : (Γ'.piece p).empty <;> simp [entry, Ms.leaf, own, Ms.Layout.foot, h]

theorem cache_nest {Γ' : Ms.Types U} (h : Γ'.Plain) (res : Option U) :
    entry (Ms.leaf Γ' (.cache res)) = (cacheFoot (fun u => (Γ'.optional u).foot) res, own (cacheFoot (fun u => (Γ'.optional u).foot) res) (.cache res)) := by
  rw [leaf_nest, show Γ'.piece (.cache res) = Γ'.cache res from rfl, (h.cache res).2]

mutual
/-- All lazy functions. -/
theorem dep_nest {Γ' : Ms.Types U} (h : Γ'.Plain) (h2 : Γ'.Aligned) : ∀ t : LTree U,
    entry (Ms.depObj Γ' t) = (t.foot (fun u => (Γ'.layout u).foot) (fun u => (Γ'.optional u).foot) (some (4, 4)),
      LTree.places (fun u => (Γ'.layout u).foot) (fun u => (Γ'.optional u).foot) (some (4, 4)) t)
  | .value v => by
    have hf := (Ms.dep_spec h (.value v)).2
    rw [← Ms.depObj_layout] at hf
    rw [entry, hf, Ms.depObj, lazyValue_nest (Ms.leaf_ok (Γ := Γ') (p := .value v) (h.layout v) (h2.layout v)).1, LTree.places]
    exact congrArg (_, ·) (congrArg Prod.snd (leaf_nest (Γ' := Γ') (.value v)))
  | .function f res => by
    have hf := (Ms.dep_spec h (.function f res)).2
    rw [← Ms.depObj_layout] at hf
    obtain ⟨c1, c2, -⟩ := Ms.cache_ok h h2 (some res)
    obtain ⟨l1, -⟩ := Ms.leaf_ok (Γ := Γ') (p := .function f) (h.layout f) (h2.layout f)
    obtain ⟨d1, -⟩ := Ms.leaf_ok (Γ := Γ') (p := .dummy) (by decide : Ms.AnyType (Ms.scalar 4)) (fun _ => ⟨2, rfl⟩)
    have e1 : entry (Ms.bindLamObj [Ms.leaf Γ' (.function f)]) = entry (Ms.leaf Γ' (.function f)) := by
      rw [entry, bindLam_nest_one l1]
      exact congrArg (·, _) (Ms.bindLam_one l1.any).2
    have e2 : entry (Ms.lazyValueObj (Ms.leaf Γ' .dummy)) = entry (Ms.leaf Γ' .dummy) := by
      rw [entry, lazyValue_nest d1]
      exact congrArg (·, _) (Ms.lazyValue_spec d1.any).2
    rw [entry, hf, Ms.depObj, detail_nest c1 c2 (by
      intro o ho
      simp only [List.mem_cons, List.not_mem_nil, or_false] at ho
      rcases ho with rfl | rfl
      · exact (Ms.bindLamObj_one l1).1
      · exact (Ms.lazyValueObj_ok d1).1), cache_nest h]
    have e1' := congrArg Prod.fst e1
    have e2' := congrArg Prod.fst e2
    simp only [List.map_cons, List.map_nil, e1, e2, leaf_nest, LTree.places]
    rw [show (Ms.bindLamObj [Ms.leaf Γ' (.function f)]).layout.foot = _ from e1', show (Ms.lazyValueObj (Ms.leaf Γ' .dummy)).layout.foot = _ from e2', leaf_nest, leaf_nest]
    rfl
  | .lazy f res deps => by
    have hf := (Ms.dep_spec h (.lazy f res deps)).2
    rw [← Ms.depObj_layout] at hf
    obtain ⟨c1, c2, -⟩ := Ms.cache_ok h h2 res
    obtain ⟨l1, -⟩ := Ms.leaf_ok (Γ := Γ') (p := .function f) (h.layout f) (h2.layout f)
    obtain ⟨d1, -⟩ := Ms.depObjs_ok h h2 deps
    have hds := deps_nest h h2 deps
    have e1 : entry (Ms.bindLamObj [Ms.leaf Γ' (.function f)]) = entry (Ms.leaf Γ' (.function f)) := by
      rw [entry, bindLam_nest_one l1]
      exact congrArg (·, _) (Ms.bindLam_one l1.any).2
    have hb := (Ms.bindLamObj_one l1).1
    have hall : ∀ o ∈ Ms.bindLamObj [Ms.leaf Γ' (.function f)] :: Ms.depObjs Γ' deps, o.OK Γ' := by
      intro o ho
      rcases List.mem_cons.1 ho with rfl | ho
      · exact hb
      · exact d1 o ho
    obtain ⟨k1, k2⟩ := Ms.detailLazyObj_ok c1 c2 hb d1
    have hke : (Ms.detailLazyObj (Ms.leaf Γ' (.cache res)) (Ms.bindLamObj [Ms.leaf Γ' (.function f)]) (Ms.depObjs Γ' deps)).layout.empty = false := by
      refine Ms.detail_empty _ _ _ Γ' k1 ?_
      rw [k2]
      have : (Γ'.piece (.cache res)).empty = false := c2
      simp [Ms.Obj.what, Ms.leaf, this]
    have e1' := congrArg Prod.fst e1
    have hfoots : (Ms.depObjs Γ' deps).map (·.layout.foot) = LTree.foots (fun u => (Γ'.layout u).foot) (fun u => (Γ'.optional u).foot) (some (4, 4)) deps := by
      have := (Ms.depList_spec h deps).2
      rw [← Ms.depObjs_layout, List.map_map] at this
      exact this
    rw [entry, hf, Ms.depObj, bindLam_nest_one (Ms.unwrapObj_ok k1 hke).1, unwrap_nest k1 hke, detail_nest c1 c2 hall, cache_nest h, LTree.places]
    simp only [List.map_cons, e1, hds, leaf_nest, hfoots]
    rw [show (Ms.bindLamObj [Ms.leaf Γ' (.function f)]).layout.foot = _ from e1', leaf_nest]
    rfl
/-- Several. -/
theorem deps_nest {Γ' : Ms.Types U} (h : Γ'.Plain) (h2 : Γ'.Aligned) : ∀ ts : List (LTree U),
    (Ms.depObjs Γ' ts).map entry = LTree.placesList (fun u => (Γ'.layout u).foot) (fun u => (Γ'.optional u).foot) (some (4, 4)) ts
  | [] => by rw [Ms.depObjs, LTree.placesList]; rfl
  | t :: ts => by rw [Ms.depObjs, LTree.placesList, List.map_cons, dep_nest h h2 t, deps_nest h h2 ts]
end

end Pigro.Lay
