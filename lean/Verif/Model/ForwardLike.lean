import Verif.Model.Cxx
import Verif.Model.Overload
/-!
# forward_like.h, as_nonconst (utils.h)
-/
namespace Pigro.Cxx
variable {B : Type}

/-- `like<From, To>::apply_if` (forward_like.h:13-14) -/
def applyIf (cond : Bool) (fn : Ty B → Ty B) (t : Ty B) : Ty B := if cond then fn t else t

/-- `like_t<From, To>` (forward_like.h:11-32) -/
def likeT {A : Type} (from_ : Ty A) (to : Ty B) : Ty B :=
  let base := to.removeReference.removeCv
  let baseFrom := from_.removeReference
  let rv := from_.isRref
  let lv := from_.isLref
  let c := baseFrom.isConst
  let v := baseFrom.isVolatile
  applyIf lv Ty.addLref (applyIf rv Ty.addRref (applyIf c Ty.addConst (applyIf v Ty.addVolatile base)))

/-- `forward_like<Like>(e)` (forward_like.h:36-42): `std::forward<like_t<Like, T>>(std::forward<T>(t))`, where `t`
is the name of the parameter `T &&t`. `none`: ill-formed. -/
def forwardLike [DecidableEq B] {A : Type} (like : Ty A) (e : Expr B) : Option (Expr B) :=
  let T := deduceFwd e
  (stdForward T e.named).bind (stdForward (likeT like T))

/-- The two overloads of `as_nonconst` (utils.h:18-21, 23-26). -/
inductive AsNonconst where
  | lvalueRef
  | forwardingRef
  deriving DecidableEq

/-- Whether the parameter can be initialised with `e`. `T &` (utils.h:19): with an lvalue; with an rvalue only
if `T` is deduced const (and not volatile). `T &&` (utils.h:24): always. -/
def AsNonconst.viable (e : Expr B) : AsNonconst → Bool
  | .lvalueRef => decide (e.cat = .lv) || (e.c && !e.v)
  | .forwardingRef => true

/-- For an rvalue, binding an rvalue reference is better; for an lvalue both bind alike, and `T &` is the more
specialised template (language rule, for utils.h:18-26). -/
def AsNonconst.better (e : Expr B) : AsNonconst → AsNonconst → Bool
  | .forwardingRef, .lvalueRef => decide (e.cat = .xv)
  | .lvalueRef, .forwardingRef => decide (e.cat = .lv)
  | _, _ => false

/-- The bodies: `const_cast<std::remove_cv_t<T> &>(value)` and `const_cast<std::remove_cv_t<T> &&>(value)` (utils.h:20, :25). -/
def AsNonconst.run (e : Expr B) : AsNonconst → Expr B
  | .lvalueRef =>
    let T : Ty B := ⟨e.base, e.c, e.v, .none⟩
    Expr.ofRef T.removeCv.addLref e.addr
  | .forwardingRef => Expr.ofRef (deduceFwd e).removeCv.addRref e.addr

/-- `as_nonconst(e)` (utils.h:18-26). `none`: ill-formed. -/
def asNonconst (e : Expr B) : Option (Expr B) :=
  match Ovl.resolve (AsNonconst.viable e) (AsNonconst.better e) [.lvalueRef, .forwardingRef] with
  | .pick f => some (f.run e)
  | _ => none

end Pigro.Cxx
