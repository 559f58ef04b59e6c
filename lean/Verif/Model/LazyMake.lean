import Verif.Model.LazyMem
/-!
# Making lazy functions, and client programs, at memory level

The functions of lazy.h and regular_void.h that make objects, with their by-value parameters, local variables and temporaries, on top of
`makeBound`; and client programs whose variables are objects in memory.

Simplifications. The object made is put into one cell (see `Model/LazyMem.lean`), read off from the elements of the bound callable. Where C++
elides a copy (a prvalue argument of a by-value parameter), the temporary is moved from. `recursive{ overload{ ... } }` (lazy.h:36-43) adds
nothing to the bound callable in it: the second lambda has no captures.
-/
namespace Pigro.LM
open Cxx
variable {D W E S : Type}

/-- `compressed_tuple{ es... } >> lambda` (or `<<`), `es` being names. `lam`: type and value of the lambda. `mk`: the object the bound callable is,
from the values of its elements. The result denotes the object made. `none`: ill-formed (lazy.h:38, :50, :70, :84, regular_void.h:16, :29). -/
def bindHere (Λ : LLang D W E S) (dir : Dir) (es : List (Expr LB)) (lam : LB × MV D W E S)
    (mk : MV D W E S → List (MV D W E S) → Option (MV D W E S)) (m : LMem D W E S) : Option (Expr LB × LMem D W E S) :=
  let m2 := m.alloc lam.2
  let tb := if es.all fun e => Λ.isEmpty e.base then LB.emptyTuple else .tuple
  match makeBound Λ isCT tb dir es ⟨lam.1, false, false, .xv, m.next⟩ m2 with
  | none => none
  | some (b, m3) =>
    match mk (elemVal Λ m3 b.f) (b.els.map (elemVal Λ m3)) with
    | none => none
    | some x => some (⟨Λ.base x, false, false, .xv, m3.next⟩, (m3.alloc x).kill m.next)

/-- A function `(auto... params) { return compressed_tuple{ params... } >> lambda; }` (or `<<`): the pattern of regular_void.h:15-16, :28-29,
lazy.h:35-38, :46-50 and :69-70. -/
def build (Λ : LLang D W E S) (dir : Dir) (params : List (Expr LB)) (lam : LB × MV D W E S)
    (mk : MV D W E S → List (MV D W E S) → Option (MV D W E S)) (m : LMem D W E S) : Option (Expr LB × LMem D W E S) :=
  let p := decayAll Λ params m
  match bindHere Λ dir (p.1.map Expr.named) lam mk p.2 with
  | none => none
  | some (r, m1) => some (r, m1.killRange m.next p.2.next)

/-- `regularized_void(f)` (regular_void.h:15-26) -/
def regularizedM (Λ : LLang D W E S) (f : Expr LB) (m : LMem D W E S) : Option (Expr LB × LMem D W E S) :=
  build Λ .front [f] (.lam .regularize, .unit) asRegularized m

/-- `unregularized_void(f)` (regular_void.h:28-39) -/
def unregularizedM (Λ : LLang D W E S) (f : Expr LB) (m : LMem D W E S) : Option (Expr LB × LMem D W E S) :=
  build Λ .front [f] (.lam .unregularize, .unit) asUnregularized m

/-- `unwrap_value(f)` (lazy.h:35-44) -/
def unwrapM (Λ : LLang D W E S) (f : Expr LB) (m : LMem D W E S) : Option (Expr LB × LMem D W E S) :=
  build Λ .back [f] (.lam .unwrap, .unit) asUnwrapped m

/-- `lazy_value(value, changed)` (lazy.h:69-76) -/
def lazyValueM (Λ : LLang D W E S) (value changed : Expr LB) (m : LMem D W E S) : Option (Expr LB × LMem D W E S) :=
  build Λ .back [value, changed] (.lam .value, .unit) asLazyValue m

/-- `compressed_tuple{ dep } << [](auto, auto dep) mutable { return dep(); }` (lazy.h:84), `dep` being the name of a parameter. -/
def wrapDepM (Λ : LLang D W E S) (dep : Expr LB) (m : LMem D W E S) : Option (Expr LB × LMem D W E S) :=
  bindHere Λ .back [dep] (.lam .poll, .unit) asWrapDep m

/-- `result_t` (lazy.h:47), from the object `f`: a fact about its type. `none`: it is no `f` of `detail::lazy`. -/
def retOf (m : LMem D W E S) (f : Expr LB) : Option RetTy :=
  match m.get f.addr with
  | .func F => some F.ret
  | _ => none

/-- `detail::lazy(f, deps...)` (lazy.h:46-67). The closure captures the new, empty `cache`. `std::optional<void>` is ill-formed. -/
def detailLazyM (Λ : LLang D W E S) (f : Expr LB) (deps : List (Expr LB)) (m : LMem D W E S) :
    Option (Expr LB × LMem D W E S) :=
  match retOf m f with
  | none => none
  | some ret =>
    build Λ .back (f :: deps) (.closure, .cache (Cache.empty ret)) asCore m

/-- What `ensure_lazy` finds out about its argument: facts about the type, read off from the object (concepts.h:14-21, lazy.h:78-90). -/
def capsM : MV D W E S → Caps
  | .obj o => o.caps
  | .user _ => ⟨false, true⟩
  | _ => ⟨false, false⟩

/-- `ensure_lazy(dep)` (lazy.h:78-90): overload resolution; then the parameter and the body. The result type of a plain function must not be
`void` (lazy.h:49). -/
def ensureLazyM [CxxData D] (Λ : LLang D W E S) (dep : Expr LB) (m : LMem D W E S) : Option (Expr LB × LMem D W E S) :=
  let p := decayCopy Λ dep m
  match ensureSelect (capsM (m.get dep.addr)) with
  | none => none
  | some .asIs => -- lazy.h:78-80
    let r := decayCopy Λ p.1 p.2
    some (r.1, r.2.kill m.next)
  | some .poll => -- lazy.h:82-86
    match m.get dep.addr with
    | .user u =>
      if u.ret = .void then none
      else
        match wrapDepM Λ p.1.named p.2 with
        | none => none
        | some (f, m1) =>
          -- the temporaries `0` and `std::true_type{}`
          let m2 := (m1.alloc (.val (.data CxxData.zero))).alloc (.flag true)
          match lazyValueM Λ ⟨Λ.base (.val (.data CxxData.zero)), false, false, .xv, m1.next⟩ ⟨.flag true, false, false, .xv, m1.next + 1⟩ m2 with
          | none => none
          | some (d, m3) =>
            match detailLazyM Λ f [d] m3 with
            | none => none
            | some (r, m4) => some (r, m4.killRange m.next m3.next)
    | _ => none
  | some .constant => -- lazy.h:88-90
    let m1 := p.2.alloc (.flag false)
    match lazyValueM Λ p.1.named ⟨.flag false, false, false, .xv, p.2.next⟩ m1 with
    | none => none
    | some (r, m2) => some (r, m2.killRange m.next m1.next)

/-- `detail::ensure_lazy(deps)...` (lazy.h:99), left to right (the order is unspecified in C++). -/
def ensureAllM [CxxData D] (Λ : LLang D W E S) : List (Expr LB) → LMem D W E S → Option (List (Expr LB) × LMem D W E S)
  | [], m => some ([], m)
  | e :: es, m =>
    match ensureLazyM Λ e m with
    | none => none
    | some (x, m1) =>
      match ensureAllM Λ es m1 with
      | none => none
      | some (xs, m2) => some (x :: xs, m2)

/-- `pigro::lazy(f, deps...)` (lazy.h:96-103). The names of parameters and local variables are lvalues. Everything but the result ends its
lifetime. -/
def pigroLazyM [CxxData D] (Λ : LLang D W E S) (f : Expr LB) (deps : List (Expr LB)) (m : LMem D W E S) :
    Option (Expr LB × LMem D W E S) :=
  let p := decayAll Λ (f :: deps) m
  match p.1.map Expr.named with
  | [] => none
  | f :: deps =>
    match regularizedM Λ f p.2 with
    | none => none
    | some (rf, m1) =>
      match ensureAllM Λ deps m1 with
      | none => none
      | some (ds, m2) =>
        match detailLazyM Λ rf ds m2 with
        | none => none
        | some (lazyF, m3) =>
          match unwrapM Λ lazyF.named m3 with
          | none => none
          | some (unwrappedLazyF, m4) =>
            match unregularizedM Λ unwrappedLazyF.named m4 with
            | none => none
            | some (r, m5) => some (r, m5.killRange m.next m4.next)

/-! ### Client programs -/

/-- What a client program sees of a result it has been given: the value of a `LazyResult`, unless reading it is undefined behaviour (client code calling lazy.h:96-103). -/
inductive Seen (D E : Type) where
  | unit
  | ret (o : Out E (Option (Val D)))
  | polled (o : Out E (Option (Val D) × Bool))
  | invalid

/-- The variables of a client program: addresses (client code calling lazy.h:96-103). -/
structure MState (D W E S : Type) where
  vars : List Nat
  mem : LMem D W E S

/-- The arguments of `pigro::lazy` in a client program, as expressions: temporaries for values and functions, lvalues for variables (the arguments of lazy.h:96). -/
def placeArgs (Λ : LLang D W E S) (vars : List Nat) : List (ArgRef D W E S) → LMem D W E S → Option (List (Expr LB) × LMem D W E S)
  | [], m => some ([], m)
  | a :: as, m =>
    let x : Option (Expr LB × LMem D W E S) := match a with
      | .value v => some (⟨Λ.base (.val v), false, false, .xv, m.next⟩, m.alloc (.val v))
      | .function u => some (⟨Λ.base (.user u), false, false, .xv, m.next⟩, m.alloc (.user u))
      | .var i => vars[i]?.map fun a => (⟨Λ.base (m.get a), false, false, .lv, a⟩, m)
    match x with
    | none => none
    | some (e, m1) =>
      match placeArgs Λ vars as m1 with
      | none => none
      | some (es, m2) => some (e :: es, m2)

/-- One client operation (`Op`, Model/History.lean). The static type of a variable, which selects the code that is run, is read off from the
object. Temporaries of the operation end their lifetime (client code calling lazy.h:96-103). -/
def stepM [CxxData D] (Λ : LLang D W E S) (byRef : Bool) (s : MState D W E S) : Op D W E S → Seen D E × MState D W E S
  | .mk f deps =>
    match placeArgs Λ s.vars deps (s.mem.alloc (.user f)) with
    | none => (.invalid, s)
    | some (es, m1) =>
      match pigroLazyM Λ ⟨Λ.base (.user f), false, false, .xv, s.mem.next⟩ es m1 with
      | none => (.invalid, s)
      | some (r, m2) => (.unit, ⟨s.vars ++ [r.addr], m2.killRange s.mem.next m1.next⟩)
  | .copy i =>
    match s.vars[i]? with
    | some a =>
      let r := decayCopy Λ.toLang ⟨Λ.base (s.mem.get a), false, false, .lv, a⟩ s.mem
      (.unit, ⟨s.vars ++ [r.1.addr], r.2⟩)
    | none => (.invalid, s)
  | .call i =>
    match s.vars[i]? with
    | some a =>
      match s.mem.get a with
      | .obj o =>
        let r := callZ Λ byRef (sh o) ⟨Λ.base (.obj o), false, false, .lv, a⟩ [] s.mem
        (.ret r.1, { s with mem := r.2 })
      | _ => (.invalid, s)
    | none => (.invalid, s)
  | .poll i =>
    match s.vars[i]? with
    | some a =>
      match s.mem.get a with
      | .obj o =>
        let r := withNullptr (callN Λ byRef (sh o)) ⟨Λ.base (.obj o), false, false, .lv, a⟩ s.mem
        (.polled (r.1.map fun x => (x.read r.2, x.isChanged)), { s with mem := r.2 })
      | _ => (.invalid, s)
    | none => (.invalid, s)
  | .poke h => (.unit, { s with mem := { s.mem with world := { s.mem.world with w := h s.mem.world.w } } })

/-- A whole program (client code calling lazy.h:96-103). -/
def runM [CxxData D] (Λ : LLang D W E S) (byRef : Bool) : MState D W E S → List (Op D W E S) → List (Seen D E) × MState D W E S
  | s, [] => ([], s)
  | s, op :: ops =>
    let r := stepM Λ byRef s op
    let rs := runM Λ byRef r.2 ops
    (r.1 :: rs.1, rs.2)

/-- The start of a program: nothing in memory (client code calling lazy.h:96-103). -/
def MState.init (w : W) : MState D W E S := ⟨[], ⟨fun _ => .unit, fun _ => false, 0, ⟨w, []⟩, []⟩⟩

end Pigro.LM
