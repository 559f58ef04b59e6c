import Verif.Model.Bind
import Verif.Model.Overload
/-!
# Making objects with the Microsoft compiler

With this compiler `overload` is not an aggregate: it has constructors (overload.h:26-29), which copy what they are given. Everything else is as in `Model/CompressedTuple.lean` and
`Model/Bind.lean`.
-/
namespace Pigro.Cxx
variable {B V L : Type}

/-- Copies of the objects at these addresses, all of them lvalues, in order (overload.h:26, :29). -/
def copyAll (Λ : Lang B V) : List (B × Nat) → Mem V L → List (B × Nat) × Mem V L
  | [], m => ([], m)
  | x :: xs, m =>
    let r := copyAll Λ xs (Λ.initFrom ⟨x.1, false, false, .lv, x.2⟩ m)
    ((x.1, m.next) :: r.1, r.2)

/-- `overload{ f... }` as an aggregate (overload.h:35-38): every base class is initialised from its argument; the types are deduced as by value. The same type twice: ill-formed
(`none`), it would be the same base class twice. -/
def overloadAggregate [DecidableEq B] (Λ : Lang B V) (fs : List (Expr B)) (m : Mem V L) : Option (List (B × Nat) × Mem V L) :=
  if (fs.map (·.base)).Nodup then
    let ps := decayAll Λ fs m
    some (ps.1.map fun e => (e.base, e.addr), ps.2)
  else none

/-- `overload{ f... }` with the constructors of the Microsoft variant (overload.h:26-29): the parameters `fs`, by value; `std::tuple{ fs... }`, copied from the parameters; the base classes,
copied from `std::get<Gs>(args)...`. Parameters and tuple are destroyed. `none`: ill-formed. -/
def overloadConstructors [DecidableEq B] (Λ : Lang B V) (fs : List (Expr B)) (m : Mem V L) : Option (List (B × Nat) × Mem V L) :=
  let ps := decayAll Λ fs m
  let args := copyAll Λ (ps.1.map fun e => (e.base, e.addr)) ps.2
  match Ovl.constructMsvc Λ.isEmpty args.1 with
  | none => none
  | some from' =>
    let r := copyAll Λ from' args.2
    some (r.1, r.2.killRange m.next args.2.next)

/-- The addresses of the objects held by value (the captures of compressed_tuple.h:31 in overload.h:26). -/
def ownedAll (els : List (Elem B)) : List Nat :=
  els.filterMap fun el => match el with
    | .stored ty a => if ty.ref = .lref then none else some a
    | .empty _ => none

/-- The constructors of `overload` (overload.h:26-29) called with closures just made (so the parameters `fs` are these), given by what they capture: two copies of everything; the
parameters and the tuple are destroyed. (The base classes come in another order, those without captures first: no difference for the others.) -/
def overloadClosures (Λ : Lang B V) (els : List (Elem B)) (m : Mem V L) : List (Elem B) × Mem V L :=
  let args := initElems Λ true .lv els m
  let bases := initElems Λ true .lv args.1 args.2
  (bases.1, bases.2.killAll (ownedAll els ++ ownedAll args.1))

/-- `compressed_tuple_element<tag>(e)` (compressed_tuple.h:18-23; :25-35, where an `overload` of two lambdas is made). -/
def compressedTupleElementMs (Λ : Lang B V) (e : Expr B) (m : Mem V L) : List (Elem B) × Mem V L :=
  let x := compressedTupleElement Λ e m
  match x.1 with
  | .empty b => ([.empty b], x.2)
  | .stored ty a => overloadClosures Λ [.stored ty a] x.2

/-- The elements of a tuple, one after another (compressed_tuple.h:41-43). -/
def elementsMs (Λ : Lang B V) : List (Expr B) → Mem V L → List (Elem B) × Mem V L
  | [], m => ([], m)
  | e :: es, m =>
    let x := compressedTupleElementMs Λ e m
    let r := elementsMs Λ es x.2
    (x.1 ++ r.1, r.2)

/-- `make_compressed_tuple_base(values...)` (compressed_tuple.h:37-46): an `overload` of the elements. -/
def makeBaseMs (Λ : Lang B V) (es : List (Expr B)) (m : Mem V L) : List (Elem B) × Mem V L :=
  let r := elementsMs Λ es m
  overloadClosures Λ r.1 r.2

/-- `compressed_tuple<Ts...>(values...)` (compressed_tuple.h:56-60). `none`: ill-formed. -/
def constructMs [DecidableEq B] (Λ : Lang B V) (ts : List (Ty B)) (es : List (Expr B)) (m : Mem V L) : Option (List (Elem B) × Mem V L) :=
  (castArgs Λ ts es m).map fun r => makeBaseMs Λ r.1 r.2

/-- `bind_front_tuple(f, t)`, `bind_back_tuple(f, t)` (bind_tuple.h:20-50) for an rvalue `t`, which has the elements `els`: the elements for `f` and for `t` are made, then an `overload` of them.
Copying the latter copies the tuple in it with its elements. -/
def bindTupleMs (Λ : Lang B V) (dir : Dir) (f t : Expr B) (els : List (Elem B)) (m : Mem V L) : Option (Bound B × Mem V L) :=
  let f' := compressedTupleElementMs Λ f m
  let t' := compressedTupleElement Λ t f'.2
  match t'.1 with
  | .empty b =>
    let r := overloadClosures Λ (f'.1 ++ .empty b :: els) t'.2
    bound dir r
  | .stored ty addr =>
    match initTuple Λ t.c t.cat els t'.2 with
    | none => none
    | some (els', m') =>
      let e := overloadClosures Λ (.stored ty addr :: els') m'
      let r := overloadClosures Λ (f'.1 ++ e.1) e.2
      bound dir r
where
  /-- From the captures of the two elements to the bound callable. -/
  bound (dir : Dir) (r : List (Elem B) × Mem V L) : Option (Bound B × Mem V L) :=
    match r.1 with
    | f :: t :: els => some (⟨dir, f, t, els⟩, r.2)
    | _ => none

/-- The expressions `compressed_tuple{ v... } >> f` and `compressed_tuple{ v... } << f`, as `makeBound` (bind_tuple.h:20-58). -/
def makeBoundMs [DecidableEq B] (Λ : Lang B V) (isCT : B → Bool) (tb : B) (dir : Dir) (vs : List (Expr B)) (f : Expr B) (m : Mem V L) : Option (Bound B × Mem V L) :=
  match ctad isCT vs with
  | none => none
  | some ts =>
    match constructMs Λ ts vs m with
    | none => none
    | some (els, m1) => bindTupleMs Λ dir f ⟨tb, false, false, .xv, m1.next⟩ els (m1.alloc (Λ.default tb))

end Pigro.Cxx
