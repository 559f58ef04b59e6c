import Verif.Model.History
/-!
# Calls from several threads

Calls as programs over memory that threads share, cut into the single accesses to it, which a scheduler interleaves. The code is that of `Model/Lazy.lean`.

Shared memory consists of the caches (one location per closure of lazy.h:50) of all lazy objects; functions and values in lazy objects are not changed by a call (the own state of functions is not
modelled here, as if all call operators were const; theorems say so). A user function runs in one step, in which it may change the world. Two ways to hand objects over are modelled: by reference throughout
(`callR`), and by value at the outermost place (`callV`), as the pinned code does.
-/
namespace Pigro.Thr
variable {D W E S α β ι : Type}

/-- The `cache` of one closure (lazy.h:49-50): the number of the variable last, then which dependency of which dependency. -/
abbrev Loc := List Nat

/-- Memory shared by threads (the caches of lazy.h:49). -/
abbrev Mem (D : Type) := Loc → Cache D

/-- What a thread still has to do. `call`: a user function; `cmp`: the user's `operator!=` (lazy.h:51-65). -/
inductive Prog (D W E S α : Type) where
  | ret (a : α)
  | rd (l : Loc) (k : Cache D → Prog D W E S α)
  | wr (l : Loc) (c : Cache D) (k : Prog D W E S α)
  | call (kind : Kind) (u : UFn D W E S) (args : List (Val D)) (k : Except E (Val D) → Prog D W E S α)
  | cmp (a b : Val D) (k : Prog D W E S α)

/-- First the one, then the other (language rule, for lazy.h:51-65). -/
def Prog.bind : Prog D W E S α → (α → Prog D W E S β) → Prog D W E S β
  | .ret a, f => f a
  | .rd l k, f => .rd l fun c => (k c).bind f
  | .wr l c k, f => .wr l c (k.bind f)
  | .call kind u args k, f => .call kind u args fun r => (k r).bind f
  | .cmp a b k, f => .cmp a b (k.bind f)

/-- `LazyResult` (lazy.h:17-21): `src` is the value, or where the value is that `value` refers to. -/
structure Ref (D : Type) where
  src : Val D ⊕ Loc
  isChanged : Bool
  live : Bool

/-- `result.value` (lazy.h:28, 40) -/
def readRef (r : Ref D) : Prog D W E S (Val D) :=
  match r.src with
  | .inl v => .ret v
  | .inr l => .rd l fun c => .ret (c.deref.getD .rvoid)

/-- All of them, in order (lazy.h:28, :55). -/
def readRefs : List (Ref D) → Prog D W E S (List (Val D))
  | [] => .ret []
  | r :: rs => (readRef r).bind fun v => (readRefs rs).bind fun vs => .ret (v :: vs)

/-- `std::apply(f, values)` (lazy.h:56), see `Fun.call`. -/
def callFun (f : Fun D W E S) (args : List (Val D)) : Prog D W E S (Out E (Val D)) :=
  match f with
  | .regularized u => .call .fn u args fun
    | .ok v => .ret (.ok (u.ret.regularize v))
    | .error e => .ret (.thrown e)
  | .wrapDep u => .call .dep u [] fun
    | .ok v => .ret (.ok (u.ret.regularize v))
    | .error e => .ret (.thrown e)

/-- `cache != result` (lazy.h:58) for the cache that was read. -/
def compare (c : Cache D) (r : Val D) (k : Prog D W E S α) : Prog D W E S α :=
  match c with
  | .opt (some old) => .cmp old r k
  | _ => k

/-- `return LazyResult{ *cache, changed };` (lazy.h:62-65). If the result is a reference, C++ reads nothing here; the model reads whether there is a value. -/
def finish (g : Glue) (p : Loc) (changed : Bool) : Prog D W E S (Out E (Ref D)) :=
  .rd p fun c =>
    match c.deref with
    | some v => .ret (.ok ⟨if g.resultByRef then .inr p else .inl v, changed, g.coreLive c⟩)
    | none => .ret .ub

/-- Lines 53-65 of lazy.h for the closure whose cache is at `p`: `!cache` (53), `cache != result` (58) and the assignment (59) access it. -/
def coreTail [CxxData D] (g : Glue) (p : Loc) (f : Fun D W E S) (rs : List (Ref D)) : Prog D W E S (Out E (Ref D)) :=
  .rd p fun c0 =>
    if !c0.engaged || any Ref.isChanged rs then
      if rs.all (·.live) then
        (readRefs rs).bind fun vs =>
          (callFun f (transform Val.asTuple id vs)).bind fun
            | .ok result =>
              .rd p fun c1 => compare c1 result (.rd p fun c2 => .wr p (c2.assign result) (finish g p (c1.ne result)))
            | o => .ret (o.map fun _ => ⟨.inl .rvoid, false, false⟩)
      else .ret .ub
    else finish g p false

mutual
/-- `o(nullptr)` where everything is handed over by reference; `p` is the location of the outermost cache. (`o` stands for its type and its functions and values; caches are in memory.) Lines as for
`Pigro.evalN` (lazy.h:38, :50-66, :70-75). -/
def evalR [CxxData D] (g : Glue) : Loc → Obj D W E S → Prog D W E S (Out E (Ref D))
  | _, .lazyValue v c => .ret (.ok ⟨.inl v, c, !(g.resultByRef && g.valueParamByValue)⟩)
  | p, .core f _ deps => (depsR g p 0 deps).bind fun
    | .ok rs => coreTail g p f rs
    | o => .ret (o.map fun _ => ⟨.inl .rvoid, false, false⟩)
  | p, .unwrapped inner => evalR g p inner
  | p, .unregularized inner => evalR g p inner
/-- `std::tuple{ deps(nullptr)... }` (lazy.h:51), from number `i` on. -/
def depsR [CxxData D] (g : Glue) : Loc → Nat → List (Obj D W E S) → Prog D W E S (Out E (List (Ref D)))
  | _, _, [] => .ret (.ok [])
  | p, i, d :: ds => (evalR g (i :: p) d).bind fun
    | .ok r => (depsR g p (i + 1) ds).bind fun o => .ret (o.map (r :: ·))
    | o => .ret (o.map fun _ => [])
end

/-- `o()` where everything is handed over by reference (lazy.h:39-41, regular_void.h:29-38), see `Pigro.call0`. -/
def callR [CxxData D] (g : Glue) (p : Loc) : Obj D W E S → Prog D W E S (Out E (Option (Val D)))
  | .unwrapped inner => (evalR g p inner).bind fun
    | .ok r => if r.live then (readRef r).bind fun v => .ret (.ok (some v)) else .ret .ub
    | o => .ret (o.map fun _ => none)
  | .unregularized inner => (callR g p inner).bind fun o => .ret (o.map fun v => if inner.valueIsRV then none else v)
  | _ => .ret .illFormed

mutual
/-- Copy a lazy object: its caches are read (lazy.h:38, :50, regular_void.h:29). -/
def copy : Loc → Obj D W E S → Prog D W E S (Obj D W E S)
  | _, .lazyValue v c => .ret (.lazyValue v c)
  | p, .core f _ deps => .rd p fun c => (copyDeps p 0 deps).bind fun ds => .ret (.core f c ds)
  | p, .unwrapped inner => (copy p inner).bind fun o => .ret (.unwrapped o)
  | p, .unregularized inner => (copy p inner).bind fun o => .ret (.unregularized o)
/-- Its dependencies, from number `i` on (lazy.h:50). -/
def copyDeps : Loc → Nat → List (Obj D W E S) → Prog D W E S (List (Obj D W E S))
  | _, _, [] => .ret []
  | p, i, d :: ds => (copy (i :: p) d).bind fun d' => (copyDeps p (i + 1) ds).bind fun ds' => .ret (d' :: ds')
end

/-- Lines 53-65 of lazy.h for a closure of this thread, as `Pigro.coreTail`. -/
def tailL [CxxData D] (g : Glue) (f : Fun D W E S) (cache : Cache D) (rs : List (LazyRes D)) : Prog D W E S (Out E (LazyRes D)) :=
  if !cache.engaged || any LazyRes.isChanged rs then
    match readValues rs with
    | none => .ret .ub
    | some values => (callFun f values).bind fun
      | .ok result => compare cache result (match (cache.assign result).deref with
        | some v => .ret (.ok ⟨v, cache.ne result, g.coreLive cache⟩)
        | none => .ret .ub)
      | o => .ret (o.map fun _ => ⟨.rvoid, false, false⟩)
  else
    match cache.deref with
    | some v => .ret (.ok ⟨v, false, g.coreLive cache⟩)
    | none => .ret .ub

mutual
/-- `o(nullptr)` for an object of this thread, as `Pigro.evalN`. (What becomes of it is not of interest: it ends with the call.) (lazy.h:38, :50-66, :70-75) -/
def evalL [CxxData D] (g : Glue) : Obj D W E S → Prog D W E S (Out E (LazyRes D))
  | .lazyValue v c => .ret (.ok ⟨v, c, !(g.resultByRef && g.valueParamByValue)⟩)
  | .core f cache deps => (depsL g deps).bind fun
    | .ok rs => tailL g f cache rs
    | o => .ret (o.map fun _ => ⟨.rvoid, false, false⟩)
  | .unwrapped inner => (evalL g inner).bind fun o => .ret (o.map (LazyRes.through (g.resultByRef && g.unwrapParamByValue)))
  | .unregularized inner => (evalL g inner).bind fun o => .ret (o.map (LazyRes.through (g.resultByRef && g.facadeParamByValue)))
/-- As `Pigro.evalDeps` (lazy.h:51). -/
def depsL [CxxData D] (g : Glue) : List (Obj D W E S) → Prog D W E S (Out E (List (LazyRes D)))
  | [] => .ret (.ok [])
  | d :: ds => (evalL g d).bind fun
    | .ok r => (depsL g ds).bind fun o => .ret (o.map (r :: ·))
    | o => .ret (o.map fun _ => [])
end

/-- `o()` for an object of this thread, as `Pigro.call0` (lazy.h:39-41, regular_void.h:29-38). -/
def callL [CxxData D] (g : Glue) : Obj D W E S → Prog D W E S (Out E (Option (Val D)))
  | .unwrapped inner => (evalL g inner).bind fun o => .ret (match o.map (LazyRes.through (g.resultByRef && g.unwrapParamByValue)) with
    | .ok r => if r.live then .ok (some r.value) else .ub
    | o => o.map fun _ => none)
  | .unregularized inner => (callL g inner).bind fun o => .ret (o.map fun v => if inner.valueIsRV then none else v)
  | _ => .ret .illFormed

/-- `o()` where the lambda of `unregularized_void` has a by-value parameter (regular_void.h:29): a copy is called. -/
def callV [CxxData D] (g : Glue) (p : Loc) : Obj D W E S → Prog D W E S (Out E (Option (Val D)))
  | .unregularized inner => (copy p inner).bind fun o => (callL g o).bind fun r => .ret (r.map fun v => if inner.valueIsRV then none else v)
  | _ => .ret .illFormed

/-- Threads, the memory they share, and the world (client code calling lazy.h:96-103). -/
structure Sys (D W E S ι α : Type) where
  mem : Mem D
  env : Env D W S
  thr : ι → Prog D W E S α

/-- Change memory (lazy.h:59). -/
def Mem.set (m : Mem D) (l : Loc) (c : Cache D) : Mem D := fun l' => if l' = l then c else m l'

/-- One step of a program alone (lazy.h:51-65). -/
def advance : Mem D × Env D W S × Prog D W E S α → Mem D × Env D W S × Prog D W E S α
  | (m, env, .ret a) => (m, env, .ret a)
  | (m, env, .rd l k) => (m, env, k (m l))
  | (m, env, .wr l c k) => (m.set l c, env, k)
  | (m, env, .call kind u args k) => (m, (u.invoke kind args env).2.2, k (u.invoke kind args env).1)
  | (m, env, .cmp a b k) => (m, ⟨env.w, env.log ++ [.cmp a b]⟩, k)

/-- One step of thread `i` (client code calling lazy.h:96-103). -/
def tick [DecidableEq ι] (s : Sys D W E S ι α) (i : ι) : Sys D W E S ι α :=
  let x := advance (s.mem, s.env, s.thr i)
  ⟨x.1, x.2.1, fun j => if j = i then x.2.2 else s.thr j⟩

/-- Steps of threads in the order given (client code calling lazy.h:96-103). -/
def exec [DecidableEq ι] : Sys D W E S ι α → List ι → Sys D W E S ι α
  | s, [] => s
  | s, i :: is => exec (tick s i) is

end Pigro.Thr
