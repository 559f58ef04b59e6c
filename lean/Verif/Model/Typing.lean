import Verif.Model.History
/-!
# lazy.h: which programs compile, and the types of their expressions

`Model/Lazy.lean` says what lazy functions do, with static types erased; here is what the compiler checks. A type is the type of an ordinary user type, `regular_void`, or a
`std::tuple`. Simplification: the two types computed for the result of a wrapped function (lazy.h:47 and :56) must be the same; C++ only asks that one
can be compared with and assigned to an optional of the other. Functions returning references (for which `std::optional` is ill-formed) are not modelled.
-/
namespace Pigro

/-- Types of values; `C`: the ordinary user types (lazy.h:47). -/
inductive STy (C : Type) where
  | data (c : C)
  | rvoid
  | tup (ts : List (STy C))

mutual
/-- Whether two types are the same (lazy.h:47, :58). -/
def STy.same {C : Type} [DecidableEq C] : STy C → STy C → Bool
  | .data a, .data b => decide (a = b)
  | .rvoid, .rvoid => true
  | .tup as, .tup bs => STy.sameList as bs
  | _, _ => false
/-- The same for lists (lazy.h:47, :58). -/
def STy.sameList {C : Type} [DecidableEq C] : List (STy C) → List (STy C) → Bool
  | [], [] => true
  | a :: as, b :: bs => STy.same a b && STy.sameList as bs
  | _, _ => false
end

mutual
theorem STy.same_iff {C : Type} [DecidableEq C] : ∀ (a b : STy C), STy.same a b = true ↔ a = b
  | .data a, .data b => by simp [STy.same]
  | .rvoid, .rvoid => by simp [STy.same]
  | .tup as, .tup bs => by simp [STy.same, STy.sameList_iff as bs]
  | .data _, .rvoid => by simp [STy.same]
  | .data _, .tup _ => by simp [STy.same]
  | .rvoid, .data _ => by simp [STy.same]
  | .rvoid, .tup _ => by simp [STy.same]
  | .tup _, .data _ => by simp [STy.same]
  | .tup _, .rvoid => by simp [STy.same]
theorem STy.sameList_iff {C : Type} [DecidableEq C] : ∀ (as bs : List (STy C)), STy.sameList as bs = true ↔ as = bs
  | [], [] => by simp [STy.sameList]
  | [], _ :: _ => by simp [STy.sameList]
  | _ :: _, [] => by simp [STy.sameList]
  | a :: as, b :: bs => by simp [STy.sameList, STy.same_iff a b, STy.sameList_iff as bs]
end

instance {C : Type} [DecidableEq C] : DecidableEq (STy C) := fun a b => decidable_of_iff _ (STy.same_iff a b)

/-- Return types (regular_void.h:17). -/
inductive RTy (C : Type) where
  | void
  | val (t : STy C)
  deriving DecidableEq

variable {C D W E S : Type}

/-- What the code inspects of a return type (regular_void.h:19, :32). -/
def RTy.kind : RTy C → RetTy
  | .void => .void
  | .val .rvoid => .rvoid
  | .val _ => .val

/-- The return type of `regularized_void(f)` (regular_void.h:17-24). -/
def RTy.regularize : RTy C → STy C
  | .void => .rvoid
  | .val t => t

mutual
/-- The type of a value. `cls`: that of user data (lazy.h:28). -/
def Val.type (cls : D → C) : Val D → STy C
  | .data d => .data (cls d)
  | .rvoid => .rvoid
  | .tup vs => .tup (Val.types cls vs)
/-- The types of several values (lazy.h:55). -/
def Val.types (cls : D → C) : List (Val D) → List (STy C)
  | [] => []
  | v :: vs => Val.type cls v :: Val.types cls vs
end

/-- What user functions accept and return: `decltype(f(args...))` for arguments of the given types. `none`: not invocable (lazy.h:47, regular_void.h:17). -/
abbrev FnSig (C D W E S : Type) := FnCode D W E S → List (STy C) → Option (RTy C)

/-- Elements of a tuple type (tuple_algorithms.h:10). -/
def STy.asTuple : STy C → Option (List (STy C))
  | .tup ts => some ts
  | _ => none

/-- The type of the values of `detail::lazy(regularized_void(f), deps...)` (lazy.h:46-67), the values of the dependencies having types `ts`:
`result_t` (:47) is `decltype(f(deps(nullptr).value...))`; the call `std::apply(f, values)` (:56) has to be well-formed for the tuple `values` made by `transform` (:55,
tuple_algorithms.h:10), and to have the same type. `none`: does not compile. -/
def lazyType [DecidableEq C] (sig : FnSig C D W E S) (f : FnCode D W E S) (ts : List (STy C)) : Option (STy C) :=
  match sig f ts, sig f (tupleCTAD STy.asTuple ts) with
  | some r, some r' => if r = r' then some r.regularize else none
  | _, _ => none

/-- The type of the values of `ensure_lazy(dep)` (lazy.h:78-90); `Γ`: types of the variables. For a plain function (:82-86) `result_t` is `decltype(dep())`; `std::optional<void>`
does not compile. -/
def ArgRef.type (cls : D → C) (sig : FnSig C D W E S) (Γ : List (STy C)) : ArgRef D W E S → Option (STy C)
  | .value v => some (v.type cls)
  | .function u =>
    match sig u.toFnCode [] with
    | some (.val t) => some t
    | _ => none
  | .var i => Γ[i]?

/-- The types of all dependencies (the arguments of lazy.h:96). -/
def ArgRef.types (cls : D → C) (sig : FnSig C D W E S) (Γ : List (STy C)) : List (ArgRef D W E S) → Option (List (STy C))
  | [] => some []
  | a :: as =>
    match a.type cls sig Γ, ArgRef.types cls sig Γ as with
    | some t, some ts => some (t :: ts)
    | _, _ => none

/-- Type checking of one operation of a client program: the types of the variables afterwards (client code calling lazy.h:96-103). -/
def Op.check [DecidableEq C] (cls : D → C) (sig : FnSig C D W E S) (Γ : List (STy C)) : Op D W E S → Option (List (STy C))
  | .mk f deps =>
    match ArgRef.types cls sig Γ deps with
    | none => none
    | some ts =>
      match lazyType sig f.toFnCode ts with
      | none => none
      | some t => some (Γ ++ [t])
  | .copy i => Γ[i]?.map fun t => Γ ++ [t]
  | .call i => if i < Γ.length then some Γ else none
  | .poll i => if i < Γ.length then some Γ else none
  | .poke _ => some Γ

/-- Type checking of a program (client code calling lazy.h:96-103). -/
def checkAll [DecidableEq C] (cls : D → C) (sig : FnSig C D W E S) : List (STy C) → List (Op D W E S) → Option (List (STy C))
  | Γ, [] => some Γ
  | Γ, op :: ops =>
    match op.check cls sig Γ with
    | none => none
    | some Γ' => checkAll cls sig Γ' ops

end Pigro
