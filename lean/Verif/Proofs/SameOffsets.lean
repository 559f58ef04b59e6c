import Verif.Proofs.OffsetsExact
import Verif.Proofs.LazyLayout
import Verif.Proofs.State
import Verif.Props.MsOffsets
import Verif.Proofs.MsState
import Verif.Spec.SameLayout
/-!
# The state of lazy functions is at the same offsets with both models of layout
-/
namespace Pigro.Lay
variable {U : Type}

/-- An object with the one compiler and with the other: they take the same, and hold the same at the same offsets. -/
structure Twin (Γ' : Ms.Types U) (o : Holder U) (o' : Ms.Obj U) : Prop where
  ok : o'.OK Γ'
  foot : o.part.layout.foot = o'.layout.foot
  parts : o.parts = o'.parts

/-- Several of them. -/
def Twins (Γ' : Ms.Types U) : List (Holder U) → List (Ms.Obj U) → Prop
  | [], [] => True
  | o :: os, o' :: os' => Twin Γ' o o' ∧ Twins Γ' os os'
  | _, _ => False

theorem Twins.foots {Γ' : Ms.Types U} : ∀ {os : List (Holder U)} {os' : List (Ms.Obj U)}, Twins Γ' os os' →
    os.map (·.part.layout.foot) = os'.map (·.layout.foot)
  | [], [], _ => rfl
  | o :: os, o' :: os', h => by rw [List.map_cons, List.map_cons, h.1.foot, Twins.foots h.2]
  | [], _ :: _, h => h.elim
  | _ :: _, [], h => h.elim

theorem Twins.ok {Γ' : Ms.Types U} : ∀ {os : List (Holder U)} {os' : List (Ms.Obj U)}, Twins Γ' os os' → ∀ o ∈ os', o.OK Γ'
  | [], [], _ => by simp
  | o :: os, o' :: os', h => by
    intro x hx
    rcases List.mem_cons.1 hx with rfl | hx
    · exact h.1.ok
    · exact Twins.ok h.2 x hx
  | [], _ :: _, h => h.elim
  | _ :: _, [], h => h.elim

theorem Twins.flat {Γ' : Ms.Types U} (offs : Nat → Option Nat) : ∀ {os : List (Holder U)} {os' : List (Ms.Obj U)} (n : Nat), Twins Γ' os os' →
    ((os.zipIdx n).flatMap fun x => x.1.at_ (offs x.2)) = ((os'.zipIdx n).flatMap fun x => Ms.placed x.1 (offs x.2))
  | [], [], _, _ => rfl
  | o :: os, o' :: os', n, h => by
    rw [List.zipIdx_cons, List.zipIdx_cons, List.flatMap_cons, List.flatMap_cons, Twins.flat offs (n + 1) h.2]
    congr 1
    dsimp only
    cases offs n with
    | none => rfl
    | some q => simp only [Holder.at_, Ms.placed, h.1.parts]
  | [], _ :: _, _, h => h.elim
  | _ :: _, [], _, h => h.elim

variable [DecidableEq U]

/-- A `compressed_tuple`. -/
theorem twin_tuple {Γ' : Ms.Types U} {os : List (Holder U)} {os' : List (Ms.Obj U)} (h : Twins Γ' os os') (hp : ∀ p ∈ os.map (·.part), Tame p)
    (hclash : ∀ f, (os.map (·.part)).find? (! ·.layout.empty) = some f → ∀ (i : Nat) (q : Part (LTy U)), (os.map (·.part))[i]? = some q → q.layout.empty = true →
      (.emptyElem i q.ty, 0) ∉ f.layout.empties) : Twin Γ' (tupleH os) (Ms.tupleObj os') := by
  have ha : ∀ d ∈ os'.map (·.layout), Ms.AnyType d := by
    intro d hd
    obtain ⟨o, ho, rfl⟩ := List.mem_map.1 hd
    exact (h.ok o ho).any
  have h2 : ∀ d ∈ os'.map (·.layout), d.empty = false → Ms.Pow2 d.align := by
    intro d hd
    obtain ⟨o, ho, rfl⟩ := List.mem_map.1 hd
    exact (h.ok o ho).pow
  have hf := h.foots
  refine ⟨(Ms.tupleObj_ok h.ok).1, ?_, ?_⟩
  · have h3 := (tuplePart_spec false (os.map (·.part)) hp hclash).2.1
    have h4 := (Ms.tuple_spec (os'.map (·.layout)) ha).2
    rw [List.map_map] at h3 h4
    exact h3.trans ((congrArg structOf hf).trans h4.symm)
  · have hat : tupleAt (os.map (·.part)) = Ms.tupleAt true (os'.map (·.layout)) := by
      funext i
      rw [tupleAt_exact _ (fun p hm => (hp p hm).proper) (fun i p hm => (hp p (List.mem_of_getElem? hm)).own i) hclash, (Ms.C102_tuple _ ha h2).1]
      rw [List.map_map, List.map_map, List.map_map]
      exact congrArg (Ms.structAt · i) hf
    exact (congrArg (flatAt · os) hat).trans (h.flat _ 0)

/-- A bound callable. -/
theorem twin_bound {Γ' : Ms.Types U} (back : Bool) {f t : Holder U} {f' t' : Ms.Obj U} (hf : Twin Γ' f f') (ht : Twin Γ' t t') (h1 : Tame f.part) (h2 : Tame t.part)
    (hw : t.part.ty.weight ≤ f.part.ty.weight) (hu : f.part.layout.empty = false → ∀ e ∈ f.part.layout.empties, ∃ t, e.1 = .user t) :
    Twin Γ' (boundH back f t) (Ms.boundObj f' t') := by
  have hcl : ∀ d, [f.part, t.part].find? (! ·.layout.empty) = some d → (.generic back f.part.ty t.part.ty, 0) ∉ d.layout.empties ∧
      (f.part.layout.empty = true → (.emptyElem 0 f.part.ty, 0) ∉ d.layout.empties) ∧
      (t.part.layout.empty = true → (.emptyElem 1 t.part.ty, 0) ∉ d.layout.empties) := by
    intro d hd
    cases h : f.part.layout.empty
    · simp only [List.find?_cons, h, Bool.not_false, Option.some.injEq] at hd
      subst hd
      refine ⟨fun hm => ?_, by simp, fun _ hm => ?_⟩
      · obtain ⟨t, hm⟩ := hu h _ hm; simp at hm
      · obtain ⟨t, hm⟩ := hu h _ hm; simp at hm
    · simp only [List.find?_cons, h, Bool.not_true] at hd
      cases h' : t.part.layout.empty
      · simp only [h', Bool.not_false, Option.some.injEq] at hd
        subst hd
        refine ⟨fun hm => ?_, fun _ hm => ?_, by simp⟩
        · have := h2.low _ hm
          simp only [Low] at this
          omega
        · have := h2.low _ hm
          simp only [Low] at this
          omega
      · simp [h'] at hd
  refine ⟨(Ms.boundObj_ok hf.ok ht.ok).1, ?_, ?_⟩
  · have h3 := (boundPart_spec false back f.part t.part h1 h2 hw hu).2.1
    have h4 := (Ms.bound_spec hf.ok.any ht.ok.any).2
    rw [hf.foot, ht.foot] at h3
    exact h3.trans h4.symm
  · have hat : boundAt back f.part t.part = Ms.boundAt true f'.layout t'.layout := by
      funext i
      rw [boundAt_exact back _ _ h1.proper h2.proper (h1.own 0) (h2.own 1) hcl, (Ms.C102_bound _ _ hf.ok.any ht.ok.any hf.ok.pow ht.ok.pow).1, hf.foot, ht.foot]
    exact (congrArg (flatAt · [f, t]) hat).trans (Twins.flat (os := [f, t]) (os' := [f', t']) _ 0 ⟨hf, ht, trivial⟩)

omit [DecidableEq U] in
theorem twin_lam {Γ' : Ms.Types U} {p : Part (LTy U)} (h : p.layout.empty = true) : Twin Γ' (emptyH p) Ms.lamObj :=
  ⟨Ms.lamObj_ok, (foot_empty.2 h).trans rfl, rfl⟩

/-- A lambda without captures, bound. -/
theorem twin_bindLam {Γ' : Ms.Types U} (back : Bool) (k : LamKind) (hk : k ≠ .unwrapGet) {os : List (Holder U)} {os' : List (Ms.Obj U)} (h : Twins Γ' os os')
    (hp : ∀ p ∈ os.map (·.part), Tame p)
    (hclash : ∀ f, (os.map (·.part)).find? (! ·.layout.empty) = some f → ∀ (i : Nat) (q : Part (LTy U)), (os.map (·.part))[i]? = some q → q.layout.empty = true →
      (.emptyElem i q.ty, 0) ∉ f.layout.empties) : Twin Γ' (bindLamH back k os) (Ms.bindLamObj os') := by
  have hty : (os.map (·.part)).map (·.ty) = os.map (·.part.ty) := by rw [List.map_map]; rfl
  refine twin_bound back (twin_lam (lam_empty k _)) (twin_tuple h hp hclash) (lamPart_tame _ _) (tuplePart_spec false _ hp hclash).1 ?_ ?_
  · simp only [emptyH, tupleH, lamPart, tuplePart, hty]
    cases k <;> first | exact absurd rfl hk | exact Nat.le_refl _
  · intro hc
    exact absurd (show (lamPart k (os.map (·.part.ty))).layout.empty = false from hc) (by rw [lam_empty]; simp)

theorem twin_bindLam_one {Γ' : Ms.Types U} (back : Bool) (k : LamKind) (hk : k ≠ .unwrapGet) {o : Holder U} {o' : Ms.Obj U} (h : Twin Γ' o o') (hp : Tame o.part) :
    Twin Γ' (bindLamH back k [o]) (Ms.bindLamObj [o']) :=
  twin_bindLam back k hk ⟨h, trivial⟩ (by simpa using hp) (by
    intro g hg i q hq he
    have hq := List.mem_of_getElem? hq
    simp only [List.map_cons, List.map_nil, List.mem_singleton] at hq
    subst hq
    simp [he] at hg)

/-- `lazy_value` -/
theorem twin_lazyValue {Γ' : Ms.Types U} (c : Bool) {v : Holder U} {v' : Ms.Obj U} (h : Twin Γ' v v') (h1 : Tame v.part)
    (h2 : ∀ i x, (.emptyElem i x, 0) ∉ v.part.layout.empties) : Twin Γ' (lazyValueH v c) (Ms.lazyValueObj v') := by
  have hfe : (flagPart c : Part (LTy U)).layout.empty = true := by simp [flagPart, classLayout_nil]
  refine twin_bindLam true .value (by simp) (os := [v, emptyH (flagPart c)]) (os' := [v', Ms.lamObj]) ⟨h, twin_lam hfe, trivial⟩ ?_ ?_
  · intro p hp
    simp only [List.map_cons, List.map_nil, List.mem_cons, List.not_mem_nil, or_false] at hp
    rcases hp with rfl | rfl
    · exact h1
    · refine ⟨.inl hfe, ?_⟩
      intro e he
      simp only [emptyH, flagPart, classLayout_nil, List.mem_singleton] at he
      rw [he]
      exact Nat.le_refl _
  · intro f hf i q hq he
    have hfm := List.mem_of_find?_eq_some hf
    have hfn : f.layout.empty = false := by have := List.find?_some hf; simpa using this
    simp only [List.map_cons, List.map_nil, List.mem_cons, List.not_mem_nil, or_false] at hfm
    rcases hfm with rfl | rfl
    · exact h2 i _
    · rw [show (emptyH (flagPart c : Part (LTy U))).part.layout.empty = true from hfe] at hfn; simp at hfn

/-- An object of a type of the user. -/
theorem twin_leaf {Γ : Types U} {Γ' : Ms.Types U} (ty : LTy U) (p : Ms.Piece U) (hf : (Γ.piece p).foot = (Γ'.piece p).foot) (h : Ms.AnyType (Γ'.piece p))
    (h2 : (Γ'.piece p).empty = false → Ms.Pow2 (Γ'.piece p).align) : Twin Γ' (leafH Γ ty p) (Ms.leaf Γ' p) := by
  refine ⟨(Ms.leaf_ok h h2).1, hf, ?_⟩
  have : (Γ.piece p).empty = (Γ'.piece p).empty := by
    have h3 : (Γ.piece p).empty = true ↔ (Γ'.piece p).empty = true := by rw [← foot_empty, hf, Ms.foot_eq_none]
    exact Bool.eq_iff_iff.2 h3
  simp only [leafH, Ms.leaf, this]

/-- `detail::lazy` -/
theorem twin_detailLazy {Γ : Types U} {Γ' : Ms.Types U} (h : Γ.Plain) (h' : Γ'.Plain) (h2 : Γ'.Aligned) (ha : Alike Γ Γ') (res : Option U) {f : Holder U} {f' : Ms.Obj U}
    {ds : List (Holder U)} {ds' : List (Ms.Obj U)} (ht : Twins Γ' (f :: ds) (f' :: ds'))
    (hp : ∀ p ∈ (f :: ds).map (·.part), Tame p ∧ Clean p ∧ (p.layout.empty = true → p.ty.isBound = true)) :
    Twin Γ' (detailLazyH Γ res f ds) (Ms.detailLazyObj (Ms.leaf Γ' (.cache res)) f' ds') := by
  obtain ⟨c1, c2, c3⟩ := h.cache_spec res
  obtain ⟨o1, o2, -⟩ := Ms.cache_ok h' h2 res
  have hcf : (Γ.cache res).foot = (Γ'.cache res).foot := by
    rw [c3, (h'.cache res).2]
    cases res with
    | none => rfl
    | some u => exact ha.optional u
  have hclash : ∀ g, ((f :: ds).map (·.part)).find? (! ·.layout.empty) = some g → ∀ (i : Nat) (q : Part (LTy U)), ((f :: ds).map (·.part))[i]? = some q →
      q.layout.empty = true → (.emptyElem i q.ty, 0) ∉ g.layout.empties := by
    intro g hg i q hq he hn
    have hgn : g.layout.empty = false := by have := List.find?_some hg; simpa using this
    have h1 := (hp g (List.mem_of_find?_eq_some hg)).2.1 hgn i _ hn
    have h2 := (hp q (List.mem_of_getElem? hq)).2.2 he
    rw [h1] at h2
    simp at h2
  have hty : ((f :: ds).map (·.part)).map (·.ty) = (f :: ds).map (·.part.ty) := by rw [List.map_map]; rfl
  have hcl : ∀ ty : LTy U, classLayout (.user ty) [] [Γ.cache res] = ⟨(Γ.cache res).size, (Γ.cache res).size, (Γ.cache res).align, false, (Γ.cache res).empties⟩ :=
    fun ty => classLayout_member _ _ c1.2.1 c1.2.2.1 c1.2.2.2.1
  refine twin_bound true (f' := Ms.lamOfObj (Ms.leaf Γ' (.cache res))) ?_ (twin_tuple ht (fun p hm => (hp p hm).1) hclash) ?_
    (tuplePart_spec false _ (fun p hm => (hp p hm).1) hclash).1 ?_ ?_
  · refine ⟨(Ms.lamOfObj_ok o1 o2).1, ?_, ?_⟩
    · have hl := (Ms.lamOf_one (h'.cache res).1).2
      refine Eq.trans ?_ (hcf.trans hl.symm)
      simp only [coreH, hcl, Layout.foot, c1.1]
    · have hl : (Ms.leaf Γ' (.cache res)).parts = [(0, .cache res)] := by
        have : (Γ'.piece (.cache res)).empty = false := o2
        simp only [Ms.leaf, this]; rfl
      simp only [coreH, Ms.lamOfObj, hl, memberOffset_start, Ms.memberOffset_start]
      rfl
  · refine ⟨.inr (by simp only [coreH, hcl]; exact ⟨rfl, c1.2.1, c1.2.2.1, c1.2.2.2.1, c1.2.2.2.2⟩), ?_⟩
    intro e he
    simp only [coreH, hcl] at he
    obtain ⟨v, hv⟩ := c2 e he
    rw [hv]
    exact Nat.zero_le _
  · simp only [coreH, tupleH, tuplePart, hty]
    exact Nat.le_refl _
  · intro _ e he
    simp only [coreH, hcl] at he
    obtain ⟨v, hv⟩ := c2 e he
    exact ⟨_, hv⟩

/-- `unwrap_value` -/
theorem twin_unwrap {Γ' : Ms.Types U} {f : Holder U} {f' : Ms.Obj U} (h : Twin Γ' f f') (h1 : Tame f.part) (h2 : Clean f.part) (h3 : f.part.layout.empty = false) :
    Twin Γ' (unwrapH f) (Ms.unwrapObj f') := by
  have he : f'.layout.empty = false := by
    rw [Bool.eq_false_iff]
    intro hc
    rw [← Ms.foot_eq_none, ← h.foot, foot_empty] at hc
    rw [hc] at h3; simp at h3
  have hb := twin_bindLam_one true .unwrapCall (by simp) h h1
  obtain ⟨g1, g2⟩ := Ms.bindLam_one h.ok.any
  have hbe : (Ms.bindLam [f'.layout]).empty = false := by
    rw [Bool.eq_false_iff]
    intro hc
    rw [Ms.foot_eq_none.2 hc] at g2
    rw [Ms.foot_eq_none.1 g2.symm] at he; simp at he
  have hgood : ∀ d ∈ [Ms.bindLam [f'.layout], Ms.lam], Ms.Good d := by
    intro d hd
    simp only [List.mem_cons, List.not_mem_nil, or_false] at hd
    rcases hd with rfl | rfl
    · exact g1
    · exact .inl Ms.lam_zero
  have hat : (Ms.overloadAt true [Ms.bindLam [f'.layout], Ms.lam]).lookup 0 = some 0 := by
    rw [Ms.overloadAt_spec hgood (i := 0) rfl hbe, Ms.structAt_some (d := Ms.bindLam [f'.layout]) rfl hbe]
    simp [Ms.solid, membersEnd, padding_zero 0 _ (Nat.dvd_zero _)]
  refine ⟨(Ms.unwrapObj_ok h.ok he).1, ?_, ?_⟩
  · have h4 := (unwrapPart_spec false f.part h1 h2 h3).2.2.2
    have h5 := (Ms.unwrap_spec h.ok.any).2
    exact h4.trans (h.foot.trans h5.symm)
  · have hobj : (Ms.unwrapObj f').parts = (Ms.bindLamObj [f']).parts.map fun r => (0 + r.1, r.2) := by
      have hlay : (Ms.bindLamObj [f']).layout = Ms.bindLam [f'.layout] := rfl
      simp only [Ms.unwrapObj, hlay, hat, Ms.baseOffset_start, Nat.zero_add]
    rw [hobj, ← hb.parts]
    simp only [unwrapH, baseOffset_begin, Nat.zero_add]

mutual
/-- All lazy functions. -/
theorem dep_twin {Γ : Types U} {Γ' : Ms.Types U} (h : Γ.Plain) (h' : Γ'.Plain) (h2 : Γ'.Aligned) (ha : Alike Γ Γ') : ∀ t : LTree U, Twin Γ' (depH Γ t) (Ms.depObj Γ' t)
  | .value v => by
    rw [depH, Ms.depObj]
    exact twin_lazyValue false (twin_leaf (.user v) (.value v) (ha.layout v) (h'.layout v) (h2.layout v)) (h.part_tame v) (h.part_names v)
  | .function f res => by
    have hint : Tame (intPart : Part (LTy U)) := ⟨.inr ⟨rfl, by simp [intPart, scalar], by simp [intPart, scalar], by simp [intPart, scalar],
      by simp [intPart, scalar]⟩, by simp [intPart, scalar]⟩
    obtain ⟨f1, f2, f3⟩ := bindLam_one false true .poll (by simp) (Γ.part f) (h.part_tame f) (fun _ i x hx => absurd hx (h.part_names f i x)) (fun _ => rfl)
    obtain ⟨v1, v2, v3⟩ := lazyValuePart_spec false (intPart : Part (LTy U)) true hint (by simp [intPart, scalar]) rfl
    have hd : Ms.AnyType (Γ'.piece .dummy) ∧ Ms.Pow2 (Γ'.piece .dummy).align := ⟨(by decide : Ms.AnyType (Ms.scalar 4)), ⟨2, rfl⟩⟩
    rw [depH, Ms.depObj]
    refine twin_detailLazy h h' h2 ha (some res) ⟨twin_bindLam_one true .poll (by simp) (twin_leaf (.user f) (.function f) (ha.layout f) (h'.layout f) (h2.layout f)) (h.part_tame f),
      twin_lazyValue true (twin_leaf .int .dummy rfl hd.1 fun _ => hd.2) hint (by simp [leafH, Types.piece, scalar]), trivial⟩ ?_
    intro p hp
    simp only [List.map_cons, List.map_nil, List.mem_cons, List.not_mem_nil, or_false] at hp
    rcases hp with rfl | rfl
    · exact ⟨f1, f2, fun _ => rfl⟩
    · exact ⟨v1, v2, fun _ => rfl⟩
  | .lazy f res deps => by
    obtain ⟨d1, -⟩ := depParts_spec h false deps
    obtain ⟨f1, f2, -⟩ := bindLam_one false false .regularize (by simp) (Γ.part f) (h.part_tame f) (fun _ i x hx => absurd hx (h.part_names f i x)) (fun _ => rfl)
    obtain ⟨c1, c2, -⟩ := h.cache_spec res
    obtain ⟨h3, h4, h5, -⟩ := detailLazyPart_spec false (Γ.cache res) c1 c2 (regularizedPart false (Γ.part f)) (depParts Γ false deps) (by
        intro p hp
        rcases List.mem_cons.1 hp with rfl | hp
        · exact ⟨f1, f2, fun _ => rfl⟩
        · exact d1 p hp)
    obtain ⟨u1, u2, u3, -⟩ := unwrapPart_spec false _ h3 h4 h5
    have hpart : (detailLazyH Γ res (bindLamH false .regularize [leafH Γ (.user f) (.function f)]) (depHs Γ deps)).part =
        detailLazyPart false (Γ.cache res) (regularizedPart false (Γ.part f)) (depParts Γ false deps) := by
      rw [← depHs_part Γ deps]
      simp only [bindLamH, boundH, detailLazyH, tupleH, emptyH, coreH, regularizedPart, bindLam, boundPart, tuplePart, detailLazyPart, List.map_cons, List.map_nil, List.map_map]
      rfl
    have hl := twin_detailLazy h h' h2 ha res (f := bindLamH false .regularize [leafH Γ (.user f) (.function f)]) (f' := Ms.bindLamObj [Ms.leaf Γ' (.function f)]) (ds := depHs Γ deps)
      (ds' := Ms.depObjs Γ' deps)
      ⟨twin_bindLam_one false .regularize (by simp) (twin_leaf (.user f) (.function f) (ha.layout f) (h'.layout f) (h2.layout f)) (h.part_tame f), deps_twin h h' h2 ha deps⟩ (by
        intro p hp
        rw [List.map_cons, List.mem_cons, depHs_part] at hp
        rcases hp with rfl | hp
        · exact ⟨f1, f2, fun _ => rfl⟩
        · exact d1 p hp)
    rw [depH, Ms.depObj]
    rw [← hpart] at h3 h4 h5 u1
    exact twin_bindLam_one false .unregularize (by simp) (twin_unwrap hl h3 h4 h5) u1
/-- Several. -/
theorem deps_twin {Γ : Types U} {Γ' : Ms.Types U} (h : Γ.Plain) (h' : Γ'.Plain) (h2 : Γ'.Aligned) (ha : Alike Γ Γ') : ∀ ts : List (LTree U),
    Twins Γ' (depHs Γ ts) (Ms.depObjs Γ' ts)
  | [] => by rw [depHs, Ms.depObjs]; trivial
  | t :: ts => by
    rw [depHs, Ms.depObjs]
    exact ⟨dep_twin h h' h2 ha t, deps_twin h h' h2 ha ts⟩
end

end Pigro.Lay
