import Verif.Model.Partition
/-!
# overload.h, and C++ overload resolution
-/
namespace Pigro.Ovl

/-- Outcome of overload resolution (language rule, for overload.h:37). -/
inductive Pick (F : Type) where
  | noMatch
  | ambiguous
  | pick (f : F)
  deriving DecidableEq, Repr

/-- `f` is better than every other viable candidate (language rule, for overload.h:37). -/
def isBest {F : Type} [DecidableEq F] (better : F → F → Bool) (vs : List F) (f : F) : Bool :=
  vs.all fun g => decide (g = f) || better f g

/-- Overload resolution ([over.match.best]): the viable candidate that is better than all others; none
viable: no match; not exactly one best: ambiguous. `viable` and `better` are given by the call (language rule, for overload.h:37). -/
def resolve {F : Type} [DecidableEq F] (viable : F → Bool) (better : F → F → Bool) (fs : List F) :
    Pick F :=
  let vs := fs.filter viable
  match vs with
  | [] => .noMatch
  | _ :: _ =>
    match vs.filter (isBest better vs) with
    | [f] => .pick f
    | _ => .ambiguous

/-- `overload{f...}` with `using Fs::operator()...` (overload.h:35-38): the candidates of a call are the call
operators of all bases. -/
def callOverload {F : Type} [DecidableEq F] (fs : List F) (viable : F → Bool) (better : F → F → Bool) :
    Pick F :=
  resolve viable better fs

/-- The MSVC variant (overload.h:15-30): the bases are `partition_t<std::is_empty, Fs...>`. -/
def callOverloadMsvc {F : Type} [DecidableEq F] (isEmpty : F → Bool) (fs : List F)
    (viable : F → Bool) (better : F → F → Bool) : Pick F :=
  resolve viable better (TL.partitionT isEmpty fs)

/-- `std::get<G>(args)` for a tuple of (type, value) pairs: ill-formed unless the type occurs exactly
once (overload.h:29). -/
def getByType {F V : Type} [DecidableEq F] (args : List (F × V)) (g : F) : Option V :=
  match args.filter (fun a => decide (a.1 = g)) with
  | [a] => some a.2
  | _ => none

/-- The constructor of the MSVC variant (overload.h:26-29): base `G` is initialised with
`std::get<G>(args)`, the bases being in partition order. `none`: ill-formed. -/
def constructMsvc {F V : Type} [DecidableEq F] (isEmpty : F → Bool) (args : List (F × V)) :
    Option (List (F × V)) :=
  (TL.partitionT isEmpty (args.map (·.1))).mapM fun g => (getByType args g).map fun v => (g, v)

end Pigro.Ovl
