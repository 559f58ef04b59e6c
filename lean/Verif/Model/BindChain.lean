import Verif.Model.Bind
import Verif.Spec.Calls
/-!
# Bound callables bound again

`compressed_tuple{ a } >> (compressed_tuple{ b } << f)` and the like, as values. What one layer does to callable, bound values and arguments is what `Model/Bind.lean` does in memory (C25; the connection is `Cxx.C105_layer_front`, `C105_layer_back`, `C105_arguments_front` and `C105_arguments_back`):
`>>` calls the callable where it is stored, and hands on the arguments as they are; `<<` copies both (`std::bind_front`).
-/
namespace Pigro.Cxx
variable {V L R : Type}

/-- A callable with layers of bound values around it (bind_tuple.h:20-58). `keep`: the callable inside is neither const nor of empty type; likewise with each value. -/
inductive Chain (V : Type) where
  | fn (s : V)
  | bind (dir : Dir) (keep : Bool) (vs : List (V × Bool)) (inner : Chain V)

/-- Values after a call, the first of them being argument number `k` of it (bind_tuple.h:29-31, :45-47). -/
def after (g : Nat → V) (k : Nat) (vs : List (V × Bool)) : List (V × Bool) := vs.mapIdx fun i p => (if p.2 then g (k + i) else p.1, p.2)

/-- Calling it (bind_tuple.h:26-32, :42-48): result, the callable afterwards, the arguments afterwards (by position), the world afterwards. -/
def Chain.call (pf : PureFn V L R) : Chain V → List V → L → R × Chain V × (Nat → V) × L
  | .fn s, args, w => let r := pf s args w; (r.1, .fn r.2.1, r.2.2.1, r.2.2.2)
  | .bind .front keep vs inner, args, w =>
    let r := inner.call pf (vs.map (·.1) ++ args) w
    (r.1, .bind .front keep (after r.2.2.1 0 vs) (if keep then r.2.1 else inner), fun i => r.2.2.1 (vs.length + i), r.2.2.2)
  | .bind .back keep vs inner, args, w =>
    let r := inner.call pf (args ++ vs.map (·.1)) w
    (r.1, .bind .back keep (after r.2.2.1 args.length vs) inner, fun i => args[i]?.getD (r.2.2.1 i), r.2.2.2)

/-- Calls one after another (client code calling bind_tuple.h:26-32, :42-48). -/
def Chain.calls (pf : PureFn V L R) : Chain V → List (List V) → L → List R
  | _, [], _ => []
  | c, args :: rest, w => let r := c.call pf args w; r.1 :: r.2.1.calls pf rest r.2.2.2

end Pigro.Cxx
