import Verif.Model.LazyEff
/-!
# Functions whose results are optionals

The cache of a function with results of type `R` is a `std::optional<R>` (lazy.h:49), and `cache != result` (lazy.h:58) compares it with an `R`. If `R` is itself
`std::optional<Q>`, two overloads of the standard library are viable: `optional<T> != U`, which looks for an `R` in the cache, and `optional<T> != optional<U>` (with `T = R` and
`U = Q`), which compares as if the result were at the level of the cache. The second is more specialised, so it is chosen.
-/
namespace Pigro.Eff.Opt

/-- `std::optional<... std::optional<X> ...>`, `k` times (the `result_t` of lazy.h:47). -/
def OptN (X : Type) : Nat → Type
  | 0 => X
  | k + 1 => Option (OptN X k)

/-- `x != y` for `std::optional<R> x` and `R y`, where `R` is `OptN X k`, as chosen by overload resolution in `changed = cache != result;` (lazy.h:58). For `k = 0` it is
`optional<T> != U`: an empty optional differs from all values. For `k + 1` it is `optional<T> != optional<U>`: if one has a value and the other has not they differ; if neither has they do not;
if both have, `*x != *y`, which is again the comparison of an optional with its content. -/
def neOV {X : Type} (ne : X → X → Bool) : (k : Nat) → Option (OptN X k) → OptN X k → Bool
  | 0, none, _ => true
  | 0, some a, b => ne a b
  | _ + 1, none, none => false
  | _ + 1, none, some _ => true
  | _ + 1, some _, none => true
  | k + 1, some a, some b => neOV ne k a b

/-- `x != y` for `x` and `y` of type `OptN X k`: the ordinary comparison, used for elements of tuples (standard library, for lazy.h:58). -/
def neHom {X : Type} (ne : X → X → Bool) : (k : Nat) → OptN X k → OptN X k → Bool
  | 0, a, b => ne a b
  | _ + 1, none, none => false
  | _ + 1, none, some _ => true
  | _ + 1, some _, none => true
  | k + 1, some a, some b => neHom ne k a b

/-- Values of a program: of type `X` or of up to `n` optionals around it (the values of lazy.h:47-63). -/
abbrev Data (X : Type) (n : Nat) : Type := (k : Fin (n + 1)) × OptN X k

instance {X : Type} [CxxData X] {n : Nat} : CxxData (Data X n) where
  ne a b := if h : a.1 = b.1 then neHom CxxData.ne a.1 a.2 (h ▸ b.2) else true
  zero := ⟨0, (CxxData.zero : X)⟩

/-- Comparisons as in lazy.h:58 with an engaged cache: `neOV` for optionals and their contents. (Values of different types are never compared.) Other types than these are compared as
everywhere. -/
def neCache {X : Type} [CxxData X] {n : Nat} : Val (Data X n) → Val (Data X n) → Bool
  | .data a, .data b => if h : a.1 = b.1 then neOV CxxData.ne a.1 (some a.2) (h ▸ b.2) else true
  | a, b => Val.ne a b

/-- Comparisons as in lazy.h:58 with an empty cache. -/
def neEmpty {X : Type} [CxxData X] {n : Nat} : Val (Data X n) → Bool
  | .data b => neOV CxxData.ne b.1 none b.2
  | _ => true

/-- Comparisons that are pure functions and copies that succeed: `changed = cache != result; cache = std::move(result);` (lazy.h:58-59). -/
def ofCmp {D W E : Type} (ne : Val D → Val D → Bool) (neNone : Val D → Bool) : Ops D W E where
  ne a b w := (.ok (ne a b), w)
  store _ r w := (.ok (), r, w)
  neNone := neNone

/-- lazy.h:58-59 with results that are optionals. (`cache = std::move(result)` uses `optional<R>::operator=(U&&)`, since the overload for `optional<U>` is disabled if `R` can be made from
it: an empty result is stored as a value.) -/
def optOps {X W E : Type} [CxxData X] (n : Nat) : Ops (Data X n) W E := ofCmp neCache neEmpty

end Pigro.Eff.Opt
