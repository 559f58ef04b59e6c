import Verif.Model.LazyMake
/-!
# The memory-level program with copies or references at choice

`Model/LazyMem.lean` and `Model/LazyMake.lean` once more, for each choice of the `Glue`: at each of the places where the pinned code hands an object
over by copy, the object may be handed over by reference instead, `auto` being replaced by `auto &&` in the parameter list of the lambda, and
`std::bind_front(f, ...)` by `std::bind_front(std::ref(f), ...)`. Everything else is the code of those files; that nothing else is different is
proved (`callNG_written`, `callZG_written`, `stepMG_written`, Proofs/LazyGlue.lean): with `auto` and `f` it is the program of those files.

The cells of the members of an object end with the function that has the object as a by-value parameter (`endingIf`, as in Model/LazyMem.lean). An
object that is called in place keeps its members: a reference to one of them stays valid.
-/
namespace Pigro.Cxx
variable {B V L R : Type}

/-- `std::bind_front(f, args...)` (bind_tuple.h:46), or `std::bind_front(std::ref(f), args...)`. -/
def bindFrontG (Λ : Lang B V) (copies : Bool) (f : Expr B) (args : List (Expr B)) (m : Mem V L) : FrontBinder B × Mem V L :=
  if copies then stdBindFront Λ f args m
  else
    let r := decayAll Λ args m
    (⟨f, r.1⟩, r.2)

/-- `Bound.body` (bind_tuple.h:27-30, :43-46), with that. -/
def Bound.bodyG [DecidableEq B] (Λ : Lang B V) (copies : Bool) (code : Code B V L R) (b : Bound B) (self : Expr Unit)
    (args : List (Expr B)) (m : Mem V L) : Option (R × Mem V L) :=
  match bindLocal Λ (callIdx b.lams 0 2 self.named) m with
  | none => none
  | some (f, m1) =>
    match bindLocal Λ (callIdx b.lams 1 2 self.named) m1 with
    | none => none
    | some (t, m2) =>
      let (r, m3) : Option (R × Mem V L) × Mem V L := match b.dir with
        | .front =>
          let x := bindBack Λ f args m2
          (apply Λ (x.1.call code) (.compressed b.els) t.c .lv x.2, x.2)
        | .back =>
          let x := bindFrontG Λ copies f args m2
          (apply Λ (x.1.call code) (.compressed b.els) t.c .lv x.2, x.2)
      r.map fun r => (r.1, r.2.killRange m.next m3.next)

/-- `Bound.call` (bind_tuple.h:22-32, :38-48), with that. -/
def Bound.callG [DecidableEq B] (Λ : Lang B V) (idxOf : B → Option Nat) (copies : Bool) (code : Code B V L R) (b : Bound B) (c : Bool)
    (cat : Cat) (args : List (Expr B)) (m : Mem V L) : BRes B V L R :=
  let index := loneIndex idxOf args
  let o := tupleExpr c cat
  match recursiveCall (fun callee _ => b.accepts index callee.c) o with
  | none => .illFormed
  | some (callee, self) =>
    match pickLam b.lams index true callee.c with
    | .pick .generic =>
      match b.bodyG Λ copies code self args m with
      | some (r, m') => .invoked r m'
      | none => .illFormed
    | .pick _ =>
      match index with
      | some I => .element (callIdx b.lams I 2 o)
      | none => .illFormed
    | _ => .illFormed

/-- A call with `auto` parameters, or with `auto &&` parameters: names for the arguments themselves (lazy.h:38, :50, :70, :84, regular_void.h:16, :29). -/
def paramsG (Λ : Lang B V) (byValue : Bool) (body : List (Expr B) → Mem V L → R × Mem V L) (args : List (Expr B)) (m : Mem V L) :
    R × Mem V L :=
  if byValue then valueParams Λ body args m else body (args.map Expr.named) m

end Pigro.Cxx

namespace Pigro.LM
open Cxx
variable {D W E S : Type}

/-- The body of a function: if it has by-value parameters, what is made in it ends with it (`ending`) (lazy.h:38, :50, :70, :84, regular_void.h:16, :29). -/
def endingIf {A R : Type} (byValue : Bool) (body : A → LMem D W E S → R × LMem D W E S) : A → LMem D W E S → R × LMem D W E S :=
  if byValue then ending body else body

/-- `callBound`, with `Bound.callG` (bind_tuple.h:22-32, :38-48). -/
def callBoundG {R : Type} (Λ : LLang D W E S) (copies : Bool) (b : Bound LB) (code : LCode D W E S R)
    (mk : MV D W E S → List (MV D W E S) → Option (MV D W E S)) (callee : Expr LB) (args : List (Expr LB)) (m0 m : LMem D W E S) :
    Out E R × LMem D W E S :=
  match b.callG Λ noIdx copies code callee.c callee.cat args m with
  | .invoked r m' =>
    (r, m'.write callee.addr ((mk (elemVal Λ m' b.f) (b.els.map (elemVal Λ m'))).getD (m0.get callee.addr)))
  | _ => (.illFormed, m0)

/-- The lambda of `regularized_void` (regular_void.h:16-25): `(auto f, auto... args)`. -/
def regularizeLamG (Λ : LLang D W E S) (g : Glue) : LCode D W E S (Val D) := fun _ args m =>
  paramsG Λ g.regParamByValue (endingIf g.regParamByValue fun ps m =>
    match ps with
    | f :: args => userCode .fn f args m
    | [] => (.illFormed, m)) args m

/-- The lambda of `ensure_lazy` (lazy.h:84): `(auto, auto dep)`. -/
def pollLamG (Λ : LLang D W E S) (g : Glue) : LCode D W E S (Val D) := fun _ args m =>
  paramsG Λ g.wrapParamByValue (endingIf g.wrapParamByValue fun ps m =>
    match ps with
    | [_, dep] => userCode .dep dep [] m
    | _ => (.illFormed, m)) args m

/-- Calling the `f` of `detail::lazy`: `compressed_tuple{ f } >> ...` (regular_void.h:16) or `compressed_tuple{ dep } << ...` (lazy.h:84). -/
def funCodeG (Λ : LLang D W E S) (g : Glue) (k : FunSh) : LCode D W E S (Val D) := fun callee args m =>
  match k, look m callee.addr with
  | .regularized, .func (.regularized u) =>
    let p := layout Λ [.user u] m
    callBoundG Λ g.bindFrontCopies ⟨.front, .empty (.lam .regularize), tupleOf p.1 callee.addr, p.1⟩ (regularizeLamG Λ g) asRegularized callee
      args m p.2
  | .wrapDep, .func (.wrapDep u) =>
    let p := layout Λ [.user u] m
    callBoundG Λ g.bindFrontCopies ⟨.back, .empty (.lam .poll), tupleOf p.1 callee.addr, p.1⟩ (pollLamG Λ g) asWrapDep callee args m p.2
  | _, _ => (.ub, m)

/-- The body of the closure of `detail::lazy` (lazy.h:50-66); see `coreBody`. -/
def coreBodyG [CxxData D] (Λ : LLang D W E S) (g : Glue) (k : FunSh)
    (evalDeps : List (Expr LB) → LMem D W E S → Out E (List (LRes D)) × LMem D W E S)
    (callee : Expr LB) (ps : List (Expr LB)) (m : LMem D W E S) : Out E (LRes D) × LMem D W E S :=
  match ps with
  | _ :: f :: deps =>
    match evalDeps deps m with
    | (.ok rs, m1) =>
      match look m1 callee.addr with
      | .cache cache =>
        if !cache.engaged || any LRes.isChanged rs then
          match readResults m1 rs with
          | none => (.ub, m1)
          | some vs =>
            let p := placeAll ((tupleCTAD Val.asTuple vs).map fun v => (Λ.base (.val v), .val v)) m1
            match funCodeG Λ g k f (constRefs p.1) p.2 with
            | (.ok result, m2) =>
              let m3 := (({ m2 with world := { m2.world with log := m2.world.log ++ cmpEvents cache result } } : LMem D W E S).write
                callee.addr (.cache (cache.assign result)))
              let r := coreResult g.resultByRef callee.addr (cache.ne result) m3
              (r.1, r.2.killRange m1.next p.2.next)
            | (o, m2) => (o.map (fun _ => mkResult g.resultByRef 0 .rvoid false), m2.killRange m1.next p.2.next)
        else coreResult g.resultByRef callee.addr false m1
      | _ => (.ub, m1)
    | (o, m1) => (o.map (fun _ => mkResult g.resultByRef 0 .rvoid false), m1)
  | _ => (.illFormed, m)

/-- The closure of `detail::lazy`: `(std::nullptr_t, auto f, auto... deps)` (lazy.h:50). (By reference, the parameter of type `std::nullptr_t`
is not copied either; it is not used.) -/
def coreLamG [CxxData D] (Λ : LLang D W E S) (g : Glue) (k : FunSh)
    (evalDeps : List (Expr LB) → LMem D W E S → Out E (List (LRes D)) × LMem D W E S) : LCode D W E S (LRes D) :=
  fun callee args m => paramsG Λ g.coreParamsByValue (endingIf g.coreParamsByValue (coreBodyG Λ g k evalDeps callee)) args m

/-- The lambda of `lazy_value`: `(std::nullptr_t, auto value, auto changed)` (lazy.h:70-75). -/
def valueLamG (Λ : LLang D W E S) (g : Glue) : LCode D W E S (LRes D) := fun _ args m =>
  paramsG Λ g.valueParamByValue (endingIf g.valueParamByValue fun ps m =>
    match ps with
    | [_, value, changed] =>
      match look m value.addr, look m changed.addr with
      | .val v, .flag b => (.ok (mkResult g.resultByRef value.addr v b), m)
      | _, _ => (.ub, m)
    | _ => (.illFormed, m)) args m

/-- The first lambda of `unwrap_value`: `(auto &self, std::nullptr_t, auto f)` (lazy.h:38). -/
def unwrapLamG (Λ : LLang D W E S) (g : Glue) (inner : LCode D W E S (LRes D)) : LCode D W E S (LRes D) := fun _ args m =>
  paramsG Λ g.unwrapParamByValue (endingIf g.unwrapParamByValue fun ps m =>
    match ps with
    | [_, f] => withNullptr inner f m
    | _ => (.illFormed, m)) (args.drop 1) m

/-- The lambda of `unregularized_void`: `(auto f, auto... args)` (regular_void.h:29-38). -/
def unregularizeLamG {R : Type} (Λ : LLang D W E S) (g : Glue) (inner : LCode D W E S R) : LCode D W E S R := fun _ args m =>
  paramsG Λ g.facadeParamByValue (endingIf g.facadeParamByValue fun ps m =>
    match ps with
    | f :: args => inner f args m
    | [] => (.illFormed, m)) args m

/-- A call of the object made by `unregularized_void` (regular_void.h:29). -/
def unregularizedCodeG {R : Type} (Λ : LLang D W E S) (g : Glue) (inner : LCode D W E S R) : LCode D W E S R := fun callee args m =>
  match look m callee.addr with
  | .obj (.unregularized o) =>
    let p := layout Λ [.obj o] m
    callBoundG Λ g.bindFrontCopies ⟨.front, .empty (.lam .unregularize), tupleOf p.1 callee.addr, p.1⟩ (unregularizeLamG Λ g inner)
      asUnregularized callee args m p.2
  | _ => (.ub, m)

mutual
/-- Calling a lazy object with one argument, `nullptr` (lazy.h:70, :50, :36-38, regular_void.h:29); see `callN`. -/
def callNG [CxxData D] (Λ : LLang D W E S) (g : Glue) : Sh → LCode D W E S (LRes D)
  | .lazyValue _ => fun callee args m =>
    match look m callee.addr with
    | .obj (.lazyValue v c) =>
      let p := layout Λ [.val v, .flag c] m
      callBoundG Λ g.bindFrontCopies ⟨.back, .empty (.lam .value), tupleOf p.1 callee.addr, p.1⟩ (valueLamG Λ g) asLazyValue callee args m p.2
    | _ => (.ub, m)
  | .core k deps => fun callee args m =>
    match look m callee.addr with
    | .obj (.core f cache ds) =>
      let p := layout Λ (.func f :: ds.map .obj) (m.alloc (.cache cache))
      callBoundG Λ g.bindFrontCopies ⟨.back, .stored ⟨.closure, false, false, .none⟩ m.next, tupleOf p.1 callee.addr, p.1⟩
        (coreLamG Λ g k (callDepsG Λ g deps)) asCore callee args m p.2
    | _ => (.ub, m)
  | .unwrapped inner => fun callee args m =>
    match look m callee.addr with
    | .obj (.unwrapped o) =>
      let p := layout Λ [.obj o] m
      callBoundG Λ g.bindFrontCopies ⟨.back, .empty (.lam .unwrap), tupleOf p.1 callee.addr, p.1⟩ (unwrapLamG Λ g (callNG Λ g inner)) asUnwrapped
        callee (callee :: args) m p.2
    | _ => (.ub, m)
  | .unregularized inner => unregularizedCodeG Λ g (callNG Λ g inner)
/-- `std::tuple{ deps(nullptr)... }` (lazy.h:51); see `callDeps`. -/
def callDepsG [CxxData D] (Λ : LLang D W E S) (g : Glue) : List Sh → List (Expr LB) → LMem D W E S →
    Out E (List (LRes D)) × LMem D W E S
  | [], _, m => (.ok [], m)
  | s :: ss, es, m =>
    match es with
    | [] => (.illFormed, m)
    | e :: es =>
      match callNG Λ g s e [⟨.nullptr, false, false, .xv, m.next⟩] (m.alloc .unit) with
      | (.ok r, m1) =>
        let x := callDepsG Λ g ss es m1
        (x.1.map (r :: ·), x.2.kill m.next)
      | (o, m1) => (o.map (fun _ => []), m1.kill m.next)
end

/-- Calling a lazy object without arguments (lazy.h:39-41, regular_void.h:28-39); see `callZ`. -/
def callZG [CxxData D] (Λ : LLang D W E S) (g : Glue) : Sh → LCode D W E S (Option (Val D))
  | .unwrapped inner => fun callee _ m =>
    let r := withNullptr (callNG Λ g (.unwrapped inner)) callee m
    match r.1 with
    | .ok x =>
      match x.read r.2 with
      | some v => (.ok (some v), r.2)
      | none => (.ub, r.2)
    | o => (o.map (fun _ => none), r.2)
  | .unregularized inner => fun callee args m =>
    match look m callee.addr with
    | .obj o =>
      let r := unregularizedCodeG Λ g (callZG Λ g inner) callee args m
      (voidResult o.valueIsRV r.1, r.2)
    | _ => (.ub, m)
  | _ => fun _ _ m => (.illFormed, m)

/-- One client operation; see `stepM`. Only calls differ (client code calling lazy.h:96-103). -/
def stepMG [CxxData D] (Λ : LLang D W E S) (g : Glue) (s : MState D W E S) : Op D W E S → Seen D E × MState D W E S
  | .call i =>
    match s.vars[i]? with
    | some a =>
      match s.mem.get a with
      | .obj o =>
        let r := callZG Λ g (sh o) ⟨Λ.base (.obj o), false, false, .lv, a⟩ [] s.mem
        (.ret r.1, { s with mem := r.2 })
      | _ => (.invalid, s)
    | none => (.invalid, s)
  | .poll i =>
    match s.vars[i]? with
    | some a =>
      match s.mem.get a with
      | .obj o =>
        let r := withNullptr (callNG Λ g (sh o)) ⟨Λ.base (.obj o), false, false, .lv, a⟩ s.mem
        (.polled (r.1.map fun x => (x.read r.2, x.isChanged)), { s with mem := r.2 })
      | _ => (.invalid, s)
    | none => (.invalid, s)
  | op => stepM Λ g.resultByRef s op

/-- A whole program (client code calling lazy.h:96-103). -/
def runMG [CxxData D] (Λ : LLang D W E S) (g : Glue) : MState D W E S → List (Op D W E S) → List (Seen D E) × MState D W E S
  | s, [] => ([], s)
  | s, op :: ops =>
    let r := stepMG Λ g s op
    let rs := runMG Λ g r.2 ops
    (r.1 :: rs.1, rs.2)

end Pigro.LM
