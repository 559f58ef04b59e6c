import Verif.Model.LazyMake
/-!
# Client programs that move and destroy lazy functions

Lazy functions are closures: they are copied and moved member by member. `auto y = std::move(x);`, `lazy(f, std::move(x))`, a function that returns a local lazy
function, a variable that goes out of scope.
-/
namespace Pigro
variable {D W E S : Type}

/-- A dependency in such a program: as before (`ArgRef`), or `std::move(x_i)` (the arguments of lazy.h:96). -/
inductive MvArg (D W E S : Type) where
  | arg (a : ArgRef D W E S)
  | move (i : Nat)

/-- Operations. Variables are numbered in the order in which they are made, also by `move` (client code calling lazy.h:96-103). -/
inductive MvOp (D W E S : Type) where
  /-- `auto y = pigro::lazy(f, deps...);` -/
  | mk (f : UFn D W E S) (deps : List (MvArg D W E S))
  /-- `auto y = x_i;` -/
  | copy (i : Nat)
  /-- `auto y = std::move(x_i);`, or `x_i` is returned to where it becomes `y` -/
  | move (i : Nat)
  /-- `x_i` goes out of scope -/
  | destroy (i : Nat)
  | call (i : Nat)
  | poll (i : Nat)
  | poke (h : W → W)

/-- What a move leaves behind: in user data, and in the own state of user callables (the `f` and `deps` of lazy.h:96). -/
structure Moved (D S : Type) where
  data : D → D
  st : S → S

mutual
/-- A moved-from value (a `std::tuple` is moved element by element) (language rule, for the values of lazy.h:69, :49). -/
def Val.movedFrom (μ : Moved D S) : Val D → Val D
  | .data d => .data (μ.data d)
  | .rvoid => .rvoid
  | .tup vs => .tup (Val.movedFromL μ vs)
/-- Element by element (language rule, for the values of lazy.h:69, :49). -/
def Val.movedFromL (μ : Moved D S) : List (Val D) → List (Val D)
  | [] => []
  | v :: vs => v.movedFrom μ :: Val.movedFromL μ vs
end

/-- A moved-from cache: `std::optional` remains engaged when it is moved from; the value in it has been moved from. For the specialization (regular_void.h:45-72)
a move is a copy. -/
def Cache.movedFrom (μ : Moved D S) : Cache D → Cache D
  | .opt o => .opt (o.map (Val.movedFrom μ))
  | .rv b => .rv b

/-- A moved-from callable of the user (language rule, for the `f` of regular_void.h:16, lazy.h:84). -/
def UFn.movedFrom (μ : Moved D S) (u : UFn D W E S) : UFn D W E S := { u with st := μ.st u.st }

/-- A moved-from `f` of `detail::lazy` (regular_void.h:16, lazy.h:84). -/
def Fun.movedFrom (μ : Moved D S) : Fun D W E S → Fun D W E S
  | .regularized u => .regularized (u.movedFrom μ)
  | .wrapDep u => .wrapDep (u.movedFrom μ)

mutual
/-- A moved-from lazy object: the elements of its tuple and the captured `cache` (compressed_tuple.h:26, lazy.h:49-50) are moved from; `changed` is a type (lazy.h:85, :89). -/
def Obj.movedFrom (μ : Moved D S) : Obj D W E S → Obj D W E S
  | .lazyValue v c => .lazyValue (v.movedFrom μ) c
  | .core f cache deps => .core (f.movedFrom μ) (cache.movedFrom μ) (Obj.movedFromL μ deps)
  | .unwrapped o => .unwrapped (o.movedFrom μ)
  | .unregularized o => .unregularized (o.movedFrom μ)
/-- Element by element (the `deps` of lazy.h:50). -/
def Obj.movedFromL (μ : Moved D S) : List (Obj D W E S) → List (Obj D W E S)
  | [] => []
  | o :: os => o.movedFrom μ :: Obj.movedFromL μ os
end

/-- Variables (`none`: destroyed) and environment (client code calling lazy.h:96-103). -/
structure MvState (D W E S : Type) where
  vars : List (Option (Obj D W E S))
  env : Env D W S

/-- Use of a variable that does not exist: never declared (does not compile) or destroyed (undefined behaviour) (client code calling lazy.h:96-103). -/
def absent (n i : Nat) : Obs D E := if i < n then .ret .ub else .invalid

/-- The arguments of `pigro::lazy`: its parameters are initialised from left to right (C++ leaves the order open), some by a move. `.error i`: no such variable (lazy.h:96). -/
def mvResolve (μ : Moved D S) : List (Option (Obj D W E S)) → List (MvArg D W E S) → Except Nat (List (DepArg D W E S) × List (Option (Obj D W E S)))
  | vars, [] => .ok ([], vars)
  | vars, a :: as =>
    let x : Except Nat (DepArg D W E S × List (Option (Obj D W E S))) := match a with
      | .arg (.value v) => .ok (.value v, vars)
      | .arg (.function u) => .ok (.function u, vars)
      | .arg (.var i) => match vars[i]? with
        | some (some o) => .ok (.lazyObj o, vars)
        | _ => .error i
      | .move i => match vars[i]? with
        | some (some o) => .ok (.lazyObj o, vars.set i (some (o.movedFrom μ)))
        | _ => .error i
    match x with
    | .error i => .error i
    | .ok (d, vars1) =>
      match mvResolve μ vars1 as with
      | .error i => .error i
      | .ok (ds, vars2) => .ok (d :: ds, vars2)

/-- One operation (client code calling lazy.h:96-103). -/
def mvStep [CxxData D] (g : Glue) (μ : Moved D S) (s : MvState D W E S) : MvOp D W E S → Obs D E × MvState D W E S
  | .mk f deps =>
    match mvResolve μ s.vars deps with
    | .error i => (absent s.vars.length i, s)
    | .ok (ds, vars) =>
      match pigroLazy f ds with
      | some o => (.unit, { s with vars := vars ++ [some o] })
      | none => (.invalid, s)
  | .copy i =>
    match s.vars[i]? with
    | some (some o) => (.unit, { s with vars := s.vars ++ [some o] })
    | _ => (absent s.vars.length i, s)
  | .move i =>
    match s.vars[i]? with
    | some (some o) => (.unit, { s with vars := s.vars.set i (some (o.movedFrom μ)) ++ [some o] })
    | _ => (absent s.vars.length i, s)
  | .destroy i =>
    match s.vars[i]? with
    | some (some _) => (.unit, { s with vars := s.vars.set i none })
    | _ => (absent s.vars.length i, s)
  | .call i =>
    match s.vars[i]? with
    | some (some o) =>
      match call0 g o s.env with
      | (r, o', env') => (.ret r, { vars := s.vars.set i (some o'), env := env' })
    | _ => (absent s.vars.length i, s)
  | .poll i =>
    match s.vars[i]? with
    | some (some o) =>
      match evalN g o s.env with
      | (r, o', env') => (.polled r, { vars := s.vars.set i (some o'), env := env' })
    | _ => (absent s.vars.length i, s)
  | .poke h => (.unit, { s with env := { s.env with w := h s.env.w } })

/-- A whole program (client code calling lazy.h:96-103). -/
def mvRun [CxxData D] (g : Glue) (μ : Moved D S) : MvState D W E S → List (MvOp D W E S) → List (Obs D E) × MvState D W E S
  | s, [] => ([], s)
  | s, op :: ops =>
    let r := mvStep g μ s op
    let rs := mvRun g μ r.2 ops
    (r.1 :: rs.1, rs.2)

/-- The start of a program (client code calling lazy.h:96-103). -/
def MvState.init (w : W) : MvState D W E S := ⟨[], ⟨w, []⟩⟩

end Pigro

/-! ### The same at memory level -/
namespace Pigro.LM
open Cxx
variable {D W E S : Type}

/-- Use of a variable that does not exist, at memory level (client code calling lazy.h:96-103). -/
def absentM (n i : Nat) : Seen D E := if i < n then .ret .ub else .invalid

/-- The address of a variable that exists (client code calling lazy.h:96-103). -/
def MState.addr? (s : MState D W E S) (i : Nat) : Option Nat :=
  match s.vars[i]? with
  | some a => if s.mem.alive a then some a else none
  | none => none

/-- The arguments of `pigro::lazy` as expressions, as `placeArgs`; `std::move(x_i)` is an xvalue that denotes `x_i`. `.error i`: no such variable (the arguments of lazy.h:96). -/
def mvPlace (Λ : LLang D W E S) (s : MState D W E S) : List (MvArg D W E S) → LMem D W E S → Except Nat (List (Expr LB) × LMem D W E S)
  | [], m => .ok ([], m)
  | a :: as, m =>
    let x : Except Nat (Expr LB × LMem D W E S) := match a with
      | .arg (.value v) => .ok (⟨Λ.base (.val v), false, false, .xv, m.next⟩, m.alloc (.val v))
      | .arg (.function u) => .ok (⟨Λ.base (.user u), false, false, .xv, m.next⟩, m.alloc (.user u))
      | .arg (.var i) => match s.addr? i with
        | some a => .ok (⟨Λ.base (m.get a), false, false, .lv, a⟩, m)
        | none => .error i
      | .move i => match s.addr? i with
        | some a => .ok (⟨Λ.base (m.get a), false, false, .xv, a⟩, m)
        | none => .error i
    match x with
    | .error i => .error i
    | .ok (e, m1) =>
      match mvPlace Λ s as m1 with
      | .error i => .error i
      | .ok (es, m2) => .ok (e :: es, m2)

/-- One operation. `move` initialises a new object from an xvalue; `destroy` ends a lifetime; the others are as in `stepM` (client code calling lazy.h:96-103). -/
def mvStepM [CxxData D] (Λ : LLang D W E S) (byRef : Bool) (s : MState D W E S) : MvOp D W E S → Seen D E × MState D W E S
  | .mk f deps =>
    match mvPlace Λ s deps (s.mem.alloc (.user f)) with
    | .error i => (absentM s.vars.length i, s)
    | .ok (es, m1) =>
      match pigroLazyM Λ ⟨Λ.base (.user f), false, false, .xv, s.mem.next⟩ es m1 with
      | none => (.invalid, s)
      | some (r, m2) => (.unit, ⟨s.vars ++ [r.addr], m2.killRange s.mem.next m1.next⟩)
  | .move i =>
    match s.addr? i with
    | some a =>
      let r := decayCopy Λ.toLang ⟨Λ.base (s.mem.get a), false, false, .xv, a⟩ s.mem
      (.unit, ⟨s.vars ++ [r.1.addr], r.2⟩)
    | none => (absentM s.vars.length i, s)
  | .destroy i =>
    match s.addr? i with
    | some a => (.unit, { s with mem := s.mem.kill a })
    | none => (absentM s.vars.length i, s)
  | .copy i =>
    match s.addr? i with
    | some _ => stepM Λ byRef s (.copy i)
    | none => (absentM s.vars.length i, s)
  | .call i =>
    match s.addr? i with
    | some _ => stepM Λ byRef s (.call i)
    | none => (absentM s.vars.length i, s)
  | .poll i =>
    match s.addr? i with
    | some _ => stepM Λ byRef s (.poll i)
    | none => (absentM s.vars.length i, s)
  | .poke h => stepM Λ byRef s (.poke h)

/-- A whole program (client code calling lazy.h:96-103). -/
def mvRunM [CxxData D] (Λ : LLang D W E S) (byRef : Bool) : MState D W E S → List (MvOp D W E S) → List (Seen D E) × MState D W E S
  | s, [] => ([], s)
  | s, op :: ops =>
    let r := mvStepM Λ byRef s op
    let rs := mvRunM Λ byRef r.2 ops
    (r.1 :: rs.1, rs.2)

end Pigro.LM
