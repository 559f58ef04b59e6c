import Verif.Model.CompressedTuple
import Verif.Props.ForwardLike
import Verif.Props.Recursive
/-!
# Lemmas about compressed tuples
-/
namespace Pigro.Cxx
variable {B V L : Type}

/-- The call operators among those of element `el` with tag `I` that are viable for `idx<I>`. -/
def Elem.viables (I : Nat) (constCallee : Bool) : Elem B → List (Lam B)
  | .empty b => [.empty I b]
  | .stored ty addr => if constCallee then [.constGet I] else [.constGet I, .mutGet I ty addr]

theorem Elem.filter_lams (el : Elem B) (tag I : Nat) (k : Bool) :
    (el.lams tag).filter (Lam.viable (some I) false k) = if tag = I then el.viables I k else [] := by
  by_cases h : tag = I
  · subst h
    cases el <;> cases k <;> simp [Elem.lams, Elem.viables, List.filter, Lam.viable]
  · have h' : ¬ I = tag := fun e => h e.symm
    cases el <;> simp [Elem.lams, List.filter, Lam.viable, h, h']

theorem filter_lams (els : List (Elem B)) (I n : Nat) (k : Bool) :
    ((els.zipIdx n).flatMap fun p => p.1.lams p.2).filter (Lam.viable (some I) false k) =
      if n ≤ I then (els[I - n]?.map (Elem.viables I k)).getD [] else [] := by
  induction els generalizing n with
  | nil => simp
  | cons el els ih =>
    simp only [List.zipIdx_cons, List.flatMap_cons, List.filter_append, ih, Elem.filter_lams]
    by_cases h1 : n = I
    · subst h1
      have : ¬ n + 1 ≤ n := by omega
      simp [this]
    · by_cases h2 : n ≤ I
      · have h3 : n + 1 ≤ I := by omega
        have h4 : I - n = (I - (n + 1)) + 1 := by omega
        rw [h4]
        simp [h1, h2, h3]
      · have h3 : ¬ n + 1 ≤ I := by omega
        simp [h1, h2, h3]

theorem pickLam_eq [DecidableEq B] (els : List (Elem B)) (I : Nat) (k : Bool) :
    pickLam (lams els) (some I) false k =
      match els[I]? with
      | none => .noMatch
      | some (.empty b) => .pick (.empty I b)
      | some (.stored ty addr) => if k then .pick (.constGet I) else .pick (.mutGet I ty addr) := by
  have h := filter_lams els I 0 k
  simp only [Nat.zero_le, if_true, Nat.sub_zero] at h
  simp only [pickLam, Ovl.callOverload, Ovl.resolve]
  rw [show lams els = ((els.zipIdx 0).flatMap fun p => p.1.lams p.2) from rfl, h]
  rcases els[I]? with _ | ⟨b | ⟨ty, addr⟩⟩
  · rfl
  · simp [Elem.viables, Ovl.isBest, List.filter]
  · cases k <;> simp [Elem.viables, Ovl.isBest, List.filter, Lam.better, Lam.isConst]

/-- What `get` does, read off directly. -/
def getSpec [DecidableEq B] (el : Option (Elem B)) (c : Bool) (cat : Cat) : Got B :=
  match el with
  | none => .notViable
  | some (.empty b) => .prvalue b
  | some (.stored ty addr) =>
    let e := access ty addr false cat
    if c then
      if e.v then .illFormed else .glvalue { e with c := true, v := false, cat := cat }
    else .glvalue e

theorem access_base (ty : Ty B) (addr : Nat) (c : Bool) (cat : Cat) :
    (access ty addr c cat).base = ty.base ∧ (access ty addr c cat).addr = addr ∧
    (access ty addr c cat).v = ty.v := by
  rcases ty with ⟨b, c', v, r⟩
  cases r <;> cases c <;> cases cat <;> exact ⟨rfl, rfl, rfl⟩

theorem access_cat (ty : Ty B) (addr : Nat) (cat : Cat) :
    (access ty addr false cat).c = ty.c ∧
    (access ty addr false cat).cat = if ty.ref = .lref then .lv else cat := by
  rcases ty with ⟨b, c', v, r⟩
  cases r <;> cases cat <;> exact ⟨rfl, rfl⟩

theorem forwardLike_const [DecidableEq B] (cat : Cat) (e : Expr B) (he : e.cat = .lv ∨ e.cat = cat) :
    forwardLike (declTypeFwd (tupleExpr true cat)) e =
      if e.v then none else some { e with c := true, v := false, cat := cat } := by
  cases hv : e.v
  · simp only [Bool.false_eq_true, if_false]
    rw [C34_forward_like]
    cases cat <;> cases h : e.cat <;>
      simp [declTypeFwd, deduceFwd, tupleExpr, Ty.addRref, hv] at he ⊢ <;> simp_all
  · rcases hf : forwardLike (declTypeFwd (tupleExpr true cat)) e with _ | r
    · rfl
    · have := ((C34_forward_like _ _ _).1 hf).2.2.1 hv
      cases cat <;> simp [declTypeFwd, deduceFwd, tupleExpr, Ty.addRref] at this

theorem get_eq [DecidableEq B] (els : List (Elem B)) (c : Bool) (cat : Cat) (I : Nat) :
    get els c cat I = getSpec els[I]? c cat := by
  have hnc : ∀ fuel, callIdx (lams els) I (fuel + 1) (tupleExpr false cat) = getSpec els[I]? false cat := by
    intro fuel
    simp only [callIdx, C36_selection, pickLam_eq]
    rcases els[I]? with _ | ⟨b | ⟨ty, addr⟩⟩
    · simp [tupleExpr, passes, getSpec]
    · simp [tupleExpr, passes, getSpec]
    · cases cat <;> simp [tupleExpr, passes, getSpec] <;> rfl
  cases c
  · exact hnc 1
  · have hrec : ∀ acc : Expr Unit → Expr Unit → Bool, acc (tupleExpr true cat) (tupleExpr true cat) = true →
        recursiveCall acc (tupleExpr true cat) = some (tupleExpr true cat, tupleExpr true cat) := by
      intro acc h
      rw [C36_selection]
      simp [tupleExpr, passes] at h ⊢
      simp [h]
    rcases hel : els[I]? with _ | ⟨b | ⟨ty, addr⟩⟩
    · simp only [get, callIdx.eq_2, C36_selection, pickLam_eq, hel]
      cases cat <;> simp [tupleExpr, passes, getSpec]
    · simp only [get, callIdx.eq_2, C36_selection, pickLam_eq, hel]
      cases cat <;> simp [tupleExpr, passes, getSpec]
    · have h1 : asNonconst (tupleExpr true cat) = some (tupleExpr false cat) := by cases cat <;> rfl
      have h2 := hnc 0
      rw [hel] at h2
      have h3 := forwardLike_const (B := B) cat (access ty addr false cat) (by
        rw [(access_cat ty addr cat).2]; split <;> simp)
      have hc : (tupleExpr true cat).c = true := rfl
      show callIdx (lams els) I (1 + 1) _ = _
      rw [callIdx.eq_2]
      simp only [pickLam_eq, hel]
      rw [hrec _ (by simp [hc])]
      simp only [hc, if_true, h1]
      rw [show (1 : Nat) = 0 + 1 from rfl, h2]
      simp only [getSpec, Bool.false_eq_true, if_false, if_true, h3]
      cases (access ty addr false cat).v <;> simp

end Pigro.Cxx
