import Verif.Model.Bind
/-!
# regular_void.h: regularized_void, unregularized_void

The objects and calls are those of bind_tuple.h; here are the lambdas bound with `>>`.
-/
namespace Pigro.Cxx
variable {B V L R : Type}

/-- What a call returns: nothing, a `regular_void`, or something else. (A result returned by reference is copied by the return type `auto`;
`R` stands for the results after that.) (regular_void.h:17-24, :30-37) -/
inductive Ret (R : Type) where
  | void
  | regular
  | val (r : R)
  deriving DecidableEq

/-- The static return type of a callable for given arguments, as far as it matters (regular_void.h:17, :30). -/
inductive RetKind where
  | void
  | regular
  | val
  deriving DecidableEq

/-- The kind of a result (regular_void.h:19, :32). -/
def Ret.kind : Ret R → RetKind
  | .void => .void
  | .regular => .regular
  | .val _ => .val

/-- A call with `auto` parameters: new objects of unqualified type, initialised from the arguments from left to right (the order is unspecified in C++;
it matters only if the same object is an argument twice, once as an rvalue), which end their lifetime with the call. Their names are lvalues (language rule, for regular_void.h:16, :29). -/
def valueParams (Λ : Lang B V) (body : List (Expr B) → Mem V L → R × Mem V L) (args : List (Expr B)) (m : Mem V L) : R × Mem V L :=
  let p := decayAll Λ args m
  let r := body (p.1.map Expr.named) p.2
  (r.1, r.2.killRange m.next p.2.next)

/-- The lambda of `regularized_void` (regular_void.h:16-25), `code` being the code of `f` and `kind` its return type. (Without arguments the call
is ill-formed; this does not happen.) -/
def regularizedLam (Λ : Lang B V) (kind : RetKind) (code : Code B V L (Ret R)) : Code B V L (Ret R) := fun _ args m =>
  valueParams Λ (fun ps m =>
    match ps with
    | [] => (.void, m)
    | f :: args =>
      if kind = .void then
        let r := code f args m
        (.regular, r.2)
      else code f args m) args m

/-- The lambda of `unregularized_void` (regular_void.h:29-38). -/
def unregularizedLam (Λ : Lang B V) (kind : RetKind) (code : Code B V L (Ret R)) : Code B V L (Ret R) := fun _ args m =>
  valueParams Λ (fun ps m =>
    match ps with
    | [] => (.void, m)
    | f :: args =>
      if kind = .regular then
        let r := code f args m
        (.void, r.2)
      else code f args m) args m

/-- `regularized_void(f)` and `unregularized_void(f)` (regular_void.h:15-26, :28-39), which differ in the lambda only: the by-value parameter `f`, the
tuple `compressed_tuple{ f }` of type `tb`, and a lambda of (empty) type `lam` bound with `>>`. Parameter and temporary lambda end their
lifetime at the end. -/
def regularizer [DecidableEq B] (Λ : Lang B V) (isCT : B → Bool) (tb lam : B) (f : Expr B) (m : Mem V L) :
    Option (Bound B × Mem V L) :=
  let p := decayCopy Λ f m
  let l : Expr B := ⟨lam, false, false, .xv, p.2.next⟩
  let m2 := p.2.alloc (Λ.emptyVal lam)
  (makeBound Λ isCT tb .front [p.1.named] l m2).map fun r => (r.1, r.2.killRange m.next m2.next)

/-- A `regularized_void(f)` (or `unregularized_void(f)`) that is itself an object held by something else, as code: `callee` denotes it, and its
value is that of the stored `f` (of type `inner`), the lambda having none. `lamCode`: the lambda. (A call that does not invoke the lambda is not
represented; it does not happen for the arguments considered.) (regular_void.h:16-25, :29-38) -/
def regularizerCode [DecidableEq B] (Λ : Lang B V) (idxOf : B → Option Nat) (tb lam inner : B) (lamCode : Code B V L (Ret R)) :
    Code B V L (Ret R) := fun callee args m =>
  let els : List (Elem B) := if Λ.isEmpty inner then [.empty inner] else [.stored ⟨inner, false, false, .none⟩ callee.addr]
  let t : Elem B := if Λ.isEmpty inner then .empty tb else .stored ⟨tb, false, false, .none⟩ callee.addr
  match (⟨.front, .empty lam, t, els⟩ : Bound B).call Λ idxOf lamCode callee.c callee.cat args m with
  | .invoked r m' => (r, m')
  | _ => (.void, m)

end Pigro.Cxx
