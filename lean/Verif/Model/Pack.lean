import Verif.Model.Memory
/-!
# pack_algorithms.h
-/
namespace Pigro.Cxx
variable {B V L R : Type}

/-- `Item<idx, T>` (pack_algorithms.h:7-13). `type` is `T`; `value` is the member `T value` as the expression
`std::forward<decltype(items.value)>(items.value)`. -/
structure Item (B : Type) where
  index : Nat
  type : Ty B
  value : Expr B
  deriving DecidableEq

/-- `enumerate_pack(f, pack...)` (pack_algorithms.h:15-25): `t` is a tuple of references `decltype(pack)`; for every index of
`std::make_index_sequence<sizeof...(pack)>` an item is made of `std::get<idx>(t)`, forwarded; `f` is invoked with all items. -/
def enumeratePack {X : Type} (f : List (Item B) → X) (pack : List (Expr B)) : X :=
  let t : List (Ty B × Expr B) := pack.map fun e => (declTypeFwd e, e)
  f ((List.range pack.length).flatMap fun i =>
    (t[i]?.map fun r => (⟨i, r.1, Expr.ofRef r.1 r.2.addr⟩ : Item B)).toList)

/-- `enumerate_n<n>(f)` (pack_algorithms.h:27-33): `enumerate_pack(f, idx...)`, the `idx` being prvalues of type `size_t`,
i.e. temporaries holding the indices, which end their lifetime when the call is over. -/
def enumerateN (sizeT : B) (ofNat : Nat → V) (n : Nat) (f : List (Item B) → Mem V L → R × Mem V L)
    (m : Mem V L) : R × Mem V L :=
  let m1 := (List.range n).foldl (fun m i => m.alloc (ofNat i)) m
  let pack := (List.range n).map fun i => (⟨sizeT, false, false, .xv, m.next + i⟩ : Expr B)
  let r := enumeratePack f pack m1
  (r.1, r.2.killAll ((List.range n).map (m.next + ·)))

end Pigro.Cxx
