import Verif.Model.ForwardLike
/-!
# C34, C35: forward_like and as_nonconst

`B` ranges over all unqualified types; the qualifications are a finite set, and the proofs are by exhaustive
case distinction over all of them.
-/
namespace Pigro.Cxx
variable {B : Type}

theorem likeT_eq {A : Type} (from_ : Ty A) (to : Ty B) :
    likeT from_ to = ⟨to.base, from_.c, from_.v, from_.ref⟩ := by
  rcases from_ with ⟨a, c, v, r⟩
  rcases to with ⟨b, c', v', r'⟩
  cases c <;> cases v <;> cases r <;> rfl

/-- **C34.** `like_t<From, To>` is `To`'s unqualified type with exactly the const, volatile and reference
qualification of `From`. -/
theorem C34_like {A : Type} (from_ : Ty A) (to : Ty B) :
    (likeT from_ to).base = to.base ∧ (likeT from_ to).c = from_.c ∧ (likeT from_ to).v = from_.v ∧
    (likeT from_ to).ref = from_.ref := by
  rw [likeT_eq]; exact ⟨rfl, rfl, rfl, rfl⟩

/-- `like_t<const A &, volatile B &&>` is `const B &`. -/
example : likeT (⟨"A", true, false, .lref⟩ : Ty String) (⟨"B", false, true, .rref⟩ : Ty String) =
    ⟨"B", true, false, .lref⟩ := rfl

/-- **C34.** `forward_like<Like>(e)` is well-formed iff it does not turn an rvalue into an lvalue and does not drop
const or volatile; it then denotes the same object, with the type of `e` and the qualification of `Like`, as an lvalue
iff `Like` is an lvalue reference. -/
theorem C34_forward_like [DecidableEq B] {A : Type} (like : Ty A) (e r : Expr B) :
    forwardLike like e = some r ↔
      (e.cat = .xv → like.ref ≠ .lref) ∧ (e.c = true → like.c = true) ∧ (e.v = true → like.v = true) ∧
      r.addr = e.addr ∧ r.base = e.base ∧ r.c = like.c ∧ r.v = like.v ∧ (r.cat = .lv ↔ like.ref = .lref) := by
  rcases like with ⟨a, c, v, ref⟩
  rcases e with ⟨b, c', v', cat, addr⟩
  rcases r with ⟨b2, c2, v2, cat2, addr2⟩
  have hT : deduceFwd (⟨b, c', v', cat, addr⟩ : Expr B) =
      ⟨b, c', v', match cat with | .lv => .lref | .xv => .none⟩ := rfl
  simp only [forwardLike, hT, likeT_eq]
  cases ref <;> cases cat <;> cases cat2 <;> cases c <;> cases v <;> cases c' <;> cases v' <;>
    simp [stdForward, Expr.named, Expr.ofRef, Ty.addRref] <;> grind

/-- A const lvalue reference applied to a non-const rvalue is rejected, a const rvalue reference is not. -/
example : forwardLike (⟨(), true, false, .lref⟩ : Ty Unit) (⟨"int", false, false, .xv, 7⟩ : Expr String) = none ∧
    forwardLike (⟨(), true, false, .rref⟩ : Ty Unit) (⟨"int", false, false, .xv, 7⟩ : Expr String) =
      some ⟨"int", true, false, .xv, 7⟩ := by
  refine ⟨by decide, ?_⟩
  exact (C34_forward_like _ _ _).2 (by simp)

/-- **C35.** `as_nonconst(e)` is always well-formed and denotes the same object with const and volatile removed,
as an lvalue for an lvalue and an xvalue for an rvalue. -/
theorem C35_as_nonconst (e : Expr B) :
    ∃ r, asNonconst e = some r ∧ r.addr = e.addr ∧ r.base = e.base ∧ r.c = false ∧ r.v = false ∧
      r.cat = e.cat := by
  rcases e with ⟨b, c, v, cat, addr⟩
  cases cat <;> cases c <;> cases v <;>
    exact ⟨_, rfl, rfl, rfl, rfl, rfl, rfl⟩

/-- A const volatile rvalue. -/
example : asNonconst (⟨"X", true, true, .xv, 3⟩ : Expr String) = some ⟨"X", false, false, .xv, 3⟩ := rfl

end Pigro.Cxx
