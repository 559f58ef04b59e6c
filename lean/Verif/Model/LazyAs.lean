import Verif.Model.LazyMake
/-!
# Client programs that call lazy functions through const references or as rvalues

`x()`, `std::as_const(x)()`, `std::move(x)()`, `lazy(f)()` (a temporary is an object like any other until the end of the expression).
-/
namespace Pigro.LM
open Cxx
variable {D W E S : Type}

/-- As `stepM` (Model/LazyMake.lean); but calls and polls are of an expression with the given constness and value category (client code calling lazy.h:96-103). -/
def stepAs [CxxData D] (Λ : LLang D W E S) (byRef : Bool) (s : MState D W E S) (c : Bool) (cat : Cat) (op : Op D W E S) :
    Seen D E × MState D W E S :=
  match op with
  | .call i =>
    match s.vars[i]? with
    | some a =>
      match s.mem.get a with
      | .obj o =>
        let r := callZ Λ byRef (sh o) ⟨Λ.base (.obj o), c, false, cat, a⟩ [] s.mem
        (.ret r.1, { s with mem := r.2 })
      | _ => (.invalid, s)
    | none => (.invalid, s)
  | .poll i =>
    match s.vars[i]? with
    | some a =>
      match s.mem.get a with
      | .obj o =>
        let r := withNullptr (callN Λ byRef (sh o)) ⟨Λ.base (.obj o), c, false, cat, a⟩ s.mem
        (.polled (r.1.map fun x => (x.read r.2, x.isChanged)), { s with mem := r.2 })
      | _ => (.invalid, s)
    | none => (.invalid, s)
  | op => stepM Λ byRef s op

/-- A whole program; each operation with the constness and category it is done with (client code calling lazy.h:96-103). -/
def runAs [CxxData D] (Λ : LLang D W E S) (byRef : Bool) : MState D W E S → List ((Bool × Cat) × Op D W E S) →
    List (Seen D E) × MState D W E S
  | s, [] => ([], s)
  | s, op :: ops =>
    let r := stepAs Λ byRef s op.1.1 op.1.2 op.2
    let rs := runAs Λ byRef r.2 ops
    (r.1 :: rs.1, rs.2)

end Pigro.LM
