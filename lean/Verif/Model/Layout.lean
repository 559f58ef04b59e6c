import Verif.Model.Partition
/-!
# Object layout: compressed_tuple.h, bind_tuple.h, overload.h, recursive.h

Class layout by the rules of the Itanium C++ ABI (2.4) for non-virtual bases and ordinary data members. Element types are given by an
identity `ty : T` and a layout. Bit-fields, virtual functions, `[[no_unique_address]]` and alignment attributes are not modelled; lambdas and
`std::tuple` are taken to be laid out like classes with their captures / elements as members.
-/
namespace Pigro.Lay
variable {T : Type}

/-- The classes that occur. `user`: classes inside element types (compressed_tuple.h:18-52, bind_tuple.h:20-50). -/
inductive Name (T : Type) where
  | user (t : T)
  /-- closure of compressed_tuple.h:20 -/
  | emptyElem (tag : Nat) (t : T)
  /-- closure of compressed_tuple.h:28 -/
  | constGet (tag : Nat) (t : T)
  /-- closure of compressed_tuple.h:31 -/
  | mutGet (tag : Nat) (t : T)
  /-- `overload` of the two (compressed_tuple.h:27) -/
  | stored (tag : Nat) (t : T)
  /-- `std::tuple<T>` (fwd_capture.h:14) -/
  | stdTuple (t : T)
  /-- closure of bind_tuple.h:25 / :41 -/
  | generic (back : Bool) (f t : T)
  /-- `overload<...>`, `overload_impl<...>`, `recursive<...>` and `compressed_tuple<...>` for given elements; `b` distinguishes binders -/
  | overload (b : Option Bool) (ts : List T)
  | overloadImpl (b : Option Bool) (ts : List T)
  | recursive (b : Option Bool) (ts : List T)
  | tuple (ts : List T)
  deriving DecidableEq

/-- Layout of a class or scalar type: size, size without tail padding (`nvsize`), alignment, whether it is an empty class, and the subobjects of
empty class type with their offsets (a class that is empty counts itself) (language rule, for compressed_tuple.h:37-52). -/
structure Layout (N : Type) where
  size : Nat
  nvsize : Nat
  align : Nat
  empty : Bool
  empties : List (N × Nat)
  deriving DecidableEq

variable {N : Type}

/-- A scalar (a reference is laid out like a pointer) (language rule, for fwd_capture.h:14). -/
def scalar (size : Nat) : Layout N := ⟨size, size, size, false, []⟩

/-- The smallest multiple of `a` that is at least `n` (language rule, for compressed_tuple.h:37-52). -/
def roundUp (n a : Nat) : Nat := (n + a - 1) / a * a

/-- State while a class is being laid out: `sizeof(C)`, `dsize(C)`, `align(C)`, subobjects of empty class type placed so far (language rule, for compressed_tuple.h:37-52). -/
structure Progress (N : Type) where
  size : Nat
  dsize : Nat
  align : Nat
  placed : List (N × Nat)

/-- Two subobjects of the same type would have the same address if a component with these `empties` were placed at `off` (language rule, for overload.h:36). -/
def conflict [DecidableEq N] (placed empties : List (N × Nat)) (off : Nat) : Bool :=
  empties.any fun e => placed.any fun p => decide (p.1 = e.1) && decide (p.2 = e.2 + off)

/-- The first offset among `off`, `off + align`, ... without conflict. (`fuel` is chosen large enough to go past everything placed.) (language rule, for overload.h:36) -/
def search [DecidableEq N] (placed empties : List (N × Nat)) (align : Nat) : Nat → Nat → Nat
  | 0, off => off
  | fuel + 1, off => if conflict placed empties off then search placed empties align fuel (off + align) else off

/-- Enough attempts (language rule, for overload.h:36). -/
def attempts (placed : List (N × Nat)) : Nat := placed.foldl (fun n p => max n p.2) 0 + 1

/-- Place a base class (Itanium C++ ABI 2.4.II): an empty one at offset 0 if possible, otherwise, and any other, at the first suitable offset from
`dsize` on (language rule, for overload.h:36, recursive.h:11). -/
def placeBase [DecidableEq N] (p : Progress N) (d : Layout N) : Progress N :=
  let next := search p.placed d.empties d.align (attempts p.placed) (roundUp p.dsize d.align)
  if d.empty then
    let off := if conflict p.placed d.empties 0 then next else 0
    ⟨max p.size (off + d.size), p.dsize, max p.align d.align, p.placed ++ d.empties.map fun e => (e.1, e.2 + off)⟩
  else
    ⟨max p.size (next + d.nvsize), next + d.nvsize, max p.align d.align, p.placed ++ d.empties.map fun e => (e.1, e.2 + next)⟩

/-- Place a data member (language rule, for fwd_capture.h:14, uncapture.h:14). -/
def placeMember [DecidableEq N] (p : Progress N) (d : Layout N) : Progress N :=
  let off := search p.placed d.empties d.align (attempts p.placed) (roundUp p.dsize d.align)
  ⟨max p.size (off + d.size), off + d.size, max p.align d.align, p.placed ++ d.empties.map fun e => (e.1, e.2 + off)⟩

/-- `struct name : bases... { members... };` A class without members whose bases are empty is empty; its size is 1 (language rule, for compressed_tuple.h:37-52, overload.h:36, recursive.h:11). -/
def classLayout [DecidableEq N] (name : N) (bases members : List (Layout N)) : Layout N :=
  let p := members.foldl placeMember (bases.foldl placeBase ⟨0, 0, 1, []⟩)
  let empty := members.isEmpty && bases.all (·.empty)
  let size := max p.size 1
  ⟨roundUp size p.align, size, p.align, empty, if empty then (name, 0) :: p.placed else p.placed⟩

/-- An element type with its layout. (For a reference to a non-empty type that of a pointer; a reference to an empty type counts as that type,
`concepts::empty` (concepts.h:23-24) looking at `std::remove_cvref_t`.) -/
structure Part (T : Type) where
  ty : T
  layout : Layout (Name T)

/-- The class returned by `compressed_tuple_element<tag>` (compressed_tuple.h:18-23 for empty types, :25-35 otherwise). -/
def elementLayout [DecidableEq T] (tag : Nat) (p : Part T) : Layout (Name T) :=
  if p.layout.empty then classLayout (.emptyElem tag p.ty) [] []
  else classLayout (.stored tag p.ty)
    [classLayout (.constGet tag p.ty) [] [],
     classLayout (.mutGet tag p.ty) [] [classLayout (.stdTuple p.ty) [] [p.layout]]] []

/-- `overload<Fs...>` (overload.h:35-38; with `msvc`, overload.h:15-30). -/
def overloadLayout [DecidableEq T] (msvc : Bool) (b : Option Bool) (ts : List T) (fs : List (Layout (Name T))) : Layout (Name T) :=
  if msvc then classLayout (.overload b ts) [classLayout (.overloadImpl b ts) (TL.partitionT (·.empty) fs) []] []
  else classLayout (.overload b ts) fs []

/-- `compressed_tuple<Ts...>` (compressed_tuple.h:37-52): derived from `recursive<overload<...>>` (recursive.h:11). -/
def tupleLayout [DecidableEq T] (msvc : Bool) (parts : List (Part T)) : Layout (Name T) :=
  let ts := parts.map (·.ty)
  classLayout (.tuple ts)
    [classLayout (.recursive none ts)
      [overloadLayout msvc none ts (parts.zipIdx.map fun p => elementLayout p.2 p.1)] []] []

/-- What `t >> f` and `t << f` return (bind_tuple.h:20-34, :36-50). `f`, `t`: the callable and the tuple as stored (the object, or a reference). -/
def boundLayout [DecidableEq T] (msvc : Bool) (back : Bool) (f t : Part T) : Layout (Name T) :=
  classLayout (.recursive (some back) [f.ty, t.ty])
    [overloadLayout msvc (some back) [f.ty, t.ty]
      [elementLayout 0 f, elementLayout 1 t, classLayout (.generic back f.ty t.ty) [] []]] []

end Pigro.Lay
