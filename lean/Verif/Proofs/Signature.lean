import Verif.Spec.Signature
import Verif.Proofs.Bind
/-!
# Which calls the binders accept: lemmas for C58
-/
namespace Pigro.Cxx
variable {B V L : Type} [DecidableEq B]

theorem argType_getSpec (el : Elem B) (c : Bool) (hok : el.constOk c) : (getSpec (some el) c .lv).argType = some (el.passTy c) := by
  rcases el with b | ⟨ty, addr⟩
  · rfl
  · rcases ty with ⟨b, c', v, r⟩
    cases c
    · cases r <;> simp [getSpec, Got.argType, access, Expr.ofRef, Ty.addLref, Expr.type, Elem.passTy]
    · have : v = false := hok rfl
      subst this
      cases r <;> simp [getSpec, Got.argType, access, Expr.ofRef, Ty.addLref, Expr.type, Elem.passTy]

theorem getTypes_eq (els : List (Elem B)) (c : Bool) (hok : ∀ el ∈ els, el.constOk c) :
    getTypes els c = some (els.map (Elem.passTy c)) := by
  have h : ∀ (n k : Nat), k + n = els.length →
      (List.range' k n).mapM (fun i => (get els c .lv i).argType) = some ((els.drop k).map (Elem.passTy c)) := by
    intro n
    induction n with
    | zero => intro k hk; simp [List.drop_eq_nil_of_le (show els.length ≤ k by omega)]
    | succ n ih =>
      intro k hk
      have hkl : k < els.length := by omega
      rw [List.range'_succ, List.mapM_cons, ih (k + 1) (by omega), get_eq, List.getElem?_eq_getElem hkl,
        argType_getSpec _ _ (hok _ (List.getElem_mem hkl)), List.drop_eq_getElem_cons hkl]
      rfl
  simpa [getTypes, List.range_eq_range'] using h els.length 0 (by omega)

theorem localType_getSpec (el : Elem B) (c : Bool) (hok : el.constOk c) : (getSpec (some el) c .lv).localType = some (el.calleeTy c) := by
  rw [Got.localType, argType_getSpec el c hok]
  rcases el with b | ⟨ty, addr⟩ <;> rfl

/-- The static behaviour in closed form. -/
theorem static_eq (conv : Ty B → Ty B → Bool) (fallback : Bool) (sig : Sig B) (b : Bound B) (f t : Expr B) (c : Bool) (args : List (Ty B))
    (hok : b.ConstOk c) (hokt : ∀ el ∈ b.els, el.constOk t.c) :
    b.static conv fallback sig f t c args =
      match b.dir with
      | .front =>
        match sig f.named.type (b.els.map (Elem.passTy t.c) ++ args) with
        | none => .notViable
        | some r =>
          match bindBackStatic conv sig (b.f.calleeTy c) args (b.els.map (Elem.passTy (b.tupleConst c))) with
          | .ok r' => returnAs conv r (some r')
          | _ => .hardError
      | .back =>
        match stdBindFrontStatic fallback sig f.named.type args (b.els.map (Elem.passTy t.c)) with
        | none => .notViable
        | some r =>
          match stdBindFrontStatic fallback sig (b.f.calleeTy c) args (b.els.map (Elem.passTy (b.tupleConst c))) with
          | some r' => returnAs conv r (some r')
          | none => .hardError := by
  have htc : (b.t.calleeTy c).c = b.tupleConst c := by
    rcases hb : b.t with x | ⟨ty, addr⟩ <;> simp [Bound.tupleConst, hb, Elem.calleeTy]
  have h1 := hok.2.2
  cases hd : b.dir
  · simp only [Bound.static, applyDeclared, getTypes_eq _ _ hokt, hd, (bound_idx b c).1, (bound_idx b c).2, localType_getSpec _ _ hok.1,
      localType_getSpec _ _ hok.2.1, htc, applyStatic, getTypes_eq _ _ h1]
    rfl
  · simp only [Bound.static, applyDeclared, getTypes_eq _ _ hokt, hd, (bound_idx b c).1, (bound_idx b c).2, localType_getSpec _ _ hok.1,
      localType_getSpec _ _ hok.2.1, htc, applyStatic, getTypes_eq _ _ h1]
    cases stdBindFrontStatic fallback sig f.named.type args (List.map (Elem.passTy t.c) b.els) with
    | none => rfl
    | some r => cases stdBindFrontStatic fallback sig (Elem.calleeTy c b.f) args (List.map (Elem.passTy (b.tupleConst c)) b.els) <;> rfl

omit [DecidableEq B] in
theorem initElems_passTy (Λ : Lang B V) (c : Bool) (cat : Cat) (k : Bool) : ∀ (els : List (Elem B)) (m : Mem V L),
    (initElems Λ c cat els m).1.map (Elem.passTy k) = els.map (Elem.passTy k) := by
  intro els
  induction els with
  | nil => intro m; rfl
  | cons el els ih =>
    intro m
    rcases el with b | ⟨ty, addr⟩
    · simp [initElems, ih]
    · rcases ty with ⟨b, c', v, r⟩
      cases r <;> simp [initElems, ih] <;> rfl

omit [DecidableEq B] in
/-- What `bind_front_tuple` / `bind_back_tuple` make of their arguments. -/
theorem bindTuple_facts (Λ : Lang B V) (dir : Dir) (f t : Expr B) (els : List (Elem B)) (m m' : Mem V L) (b : Bound B)
    (h : bindTuple Λ dir f t els m = some (b, m')) :
    b.dir = dir ∧ (b.els.map (Elem.passTy t.c) = els.map (Elem.passTy t.c)) ∧ (∀ k, b.els.map (Elem.passTy k) = els.map (Elem.passTy k)) ∧
    (∀ c, b.f.calleeTy c = if Λ.isEmpty f.base then ⟨f.base, false, false, .lref⟩ else ⟨f.base, f.c || c, f.v, .lref⟩) ∧
    (∀ c, b.tupleConst c = (!Λ.isEmpty t.base && (t.c || c))) ∧ (∀ c, f.v = false → b.f.constOk c) ∧ (∀ c, t.v = false → b.t.constOk c) := by
  have el : ∀ (e : Expr B) (m : Mem V L), (compressedTupleElement Λ e m).1 =
      if Λ.isEmpty e.base then .empty e.base else .stored (deduceFwd e) (match e.cat with | .lv => e.addr | .xv => m.next) := by
    intro e m
    have : Λ.emptyTy e.type = Λ.isEmpty e.base := rfl
    have hb : e.type.removeCvref.base = e.base := rfl
    simp only [compressedTupleElement, this, hb]
    cases Λ.isEmpty e.base
    · simp only [Bool.false_eq_true, if_false, fwdCapture]
      cases hc : e.cat <;> simp [deduceFwd, hc]
    · simp
  have hf : ∀ c, (compressedTupleElement Λ f m).1.calleeTy c =
      if Λ.isEmpty f.base then ⟨f.base, false, false, .lref⟩ else ⟨f.base, f.c || c, f.v, .lref⟩ := by
    intro c
    rw [el]
    cases Λ.isEmpty f.base <;> rfl
  have hfok : ∀ c, f.v = false → (compressedTupleElement Λ f m).1.constOk c := by
    intro c hv
    rw [el]
    cases Λ.isEmpty f.base <;> simp [Elem.constOk, deduceFwd, hv]
  unfold bindTuple at h
  simp only [el t] at h
  cases ht : Λ.isEmpty t.base
  · simp only [ht, Bool.false_eq_true, if_false] at h
    cases hr : (deduceFwd t).ref with
    | lref =>
      simp only [hr, Option.some.injEq, Prod.mk.injEq] at h
      obtain ⟨rfl, -⟩ := h
      exact ⟨rfl, rfl, fun _ => rfl, hf, by simp [Bound.tupleConst, deduceFwd], hfok, fun c hv _ => by simp [deduceFwd, hv]⟩
    | none | rref =>
      simp only [hr] at h
      split at h
      · simp at h
      · rename_i els' m2 hi
        simp only [Option.some.injEq, Prod.mk.injEq] at h
        obtain ⟨rfl, -⟩ := h
        have hk : ∀ k, els'.map (Elem.passTy k) = els.map (Elem.passTy k) := by
          intro k
          simp only [initTuple] at hi
          split at hi
          · simp at hi
          · simp at hi
          · simp only [Option.some.injEq, Prod.ext_iff] at hi
            rw [← hi.1, initElems_passTy]
        exact ⟨rfl, hk _, hk, hf, by simp [Bound.tupleConst, deduceFwd], hfok, fun c hv _ => by simp [deduceFwd, hv]⟩
  · simp only [ht, if_true, Option.some.injEq, Prod.mk.injEq] at h
    obtain ⟨rfl, -⟩ := h
    exact ⟨rfl, rfl, fun _ => rfl, hf, by simp [Bound.tupleConst], hfok, fun c _ => trivial⟩

omit [DecidableEq B] in
theorem bound_ok (Λ : Lang B V) (dir : Dir) (f t : Expr B) (els : List (Elem B)) (m m' : Mem V L) (b : Bound B)
    (h : bindTuple Λ dir f t els m = some (b, m')) (hv : NoVolatile f t els) (c : Bool) : b.ConstOk c ∧ ∀ k, ∀ el ∈ b.els, el.constOk k := by
  obtain ⟨-, -, hk, -, -, h1, h2⟩ := bindTuple_facts Λ dir f t els m m' b h
  have h3 : ∀ k, ∀ el ∈ b.els, el.constOk k := by
    intro k el hel
    have hm : el.passTy k ∈ els.map (Elem.passTy k) := by rw [← hk]; exact List.mem_map_of_mem hel
    obtain ⟨el0, h0, he⟩ := List.mem_map.1 hm
    rcases el with x | ⟨ty, a⟩
    · trivial
    · intro _
      rcases el0 with x | ⟨ty0, a0⟩
      · simp [Elem.passTy] at he
      · have := hv.2.2 _ h0 _ _ rfl
        simp only [Elem.passTy, Ty.mk.injEq] at he
        rw [← he.2.2.1, this]
  exact ⟨⟨h1 c hv.1, h2 c hv.2.1, h3 _⟩, h3⟩

omit [DecidableEq B] in
theorem asLref_of_lref (ts : List (Ty B)) (h : ∀ t ∈ ts, t.ref = .lref) : ts.map Ty.asLref = ts := by
  induction ts with
  | nil => rfl
  | cons t ts ih =>
    rw [List.map_cons, ih fun t ht => h t (by simp [ht])]
    rcases t with ⟨b, c, v, r⟩
    have : r = .lref := h ⟨b, c, v, r⟩ (by simp)
    subst this
    rfl

end Pigro.Cxx
