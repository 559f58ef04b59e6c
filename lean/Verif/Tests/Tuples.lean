import Verif.Model.Apply
import Verif.Model.Bind
import Verif.Model.RegularVoid
import Verif.Model.Algorithms
/-!
# The other tests of the repository, run on the model

tests/apply, bind_tuple, compressed_tuple, overload, pack_algorithms, partition, recursive, regular_void, to_tuple, tuple_algorithms, utils. As in `Tests/Lazy.lean`
these are tests of the model. Sizes are in `Tests/Sizes.lean`; SFINAE tests are among the examples of `Props/Signature.lean`.
-/
namespace Pigro.Cxx.Tests

inductive B where
  | int | double | Empty | idx0 | fn | efn | tuple | etuple | foo
  deriving DecidableEq

/-- Values are numbers; objects of empty type have value 0. -/
def Λ : Lang B Nat := ⟨fun b => b == .Empty || b == .idx0 || b == .efn || b == .etuple, fun _ => 0, fun _ => 99, fun _ => 0⟩

def mem (xs : List Nat) : Mem Nat Unit := ⟨fun a => xs.getD a 0, fun a => decide (a < xs.length), xs.length, (), []⟩

def lv (b : B) (a : Nat) : Expr B := ⟨b, false, false, .lv, a⟩
def rv (b : B) (a : Nat) : Expr B := ⟨b, false, false, .xv, a⟩
def clv (b : B) (a : Nat) : Expr B := ⟨b, true, false, .lv, a⟩

def val (b : B) : Ty B := ⟨b, false, false, .none⟩
def lref (b : B) : Ty B := ⟨b, false, false, .lref⟩
def rref (b : B) : Ty B := ⟨b, false, false, .rref⟩
def clref (b : B) : Ty B := ⟨b, true, false, .lref⟩
def crref (b : B) : Ty B := ⟨b, true, false, .rref⟩

/-- `decltype(g)` and value of an access. -/
def Got.see (g : Got B) (m : Mem Nat Unit) : Option (Ty B × Nat) :=
  match g with
  | .glvalue e => some (e.type, m.get e.addr)
  | .prvalue b => some (val b, Λ.emptyVal b)
  | _ => none

/-! ### compressed_tuple.test.cpp -/

/-- `recursive{ compressed_tuple_element<0>(e) }`, as a (const) lvalue, called with `idx<0>` -/
def element (e : Expr B) (c : Bool) (m : Mem Nat Unit) : Option (Ty B × Nat) :=
  let r := compressedTupleElement Λ e m
  Got.see (get [r.1] c .lv 0) r.2

/-! "compressed_tuple_element_stateful" -/
example : element (rv .int 0) false (mem [5]) = some (lref .int, 5) := by decide
example : element (rv .int 0) true (mem [5]) = some (clref .int, 5) := by decide
example : element (lv .int 0) false (mem [5]) = some (lref .int, 5) := by decide
example : element (clv .int 0) false (mem [5]) = some (clref .int, 5) := by decide
example : element (lv .int 0) true (mem [5]) = some (clref .int, 5) := by decide
example : element (clv .int 0) true (mem [5]) = some (clref .int, 5) := by decide

/-! "compressed_tuple_element_stateless" -/
example : ∀ c ∈ [false, true], ∀ e ∈ [rv .idx0 0, lv .idx0 0, clv .idx0 0], element e c (mem [0]) = some (val .idx0, 0) := by decide

/-- `get<i>(t)...` of `compressed_tuple{ es... }` -/
def basic (es : List (Expr B)) (m : Mem Nat Unit) : Option (List (Option (Ty B × Nat))) :=
  match ctad (fun b => b == .tuple) es with
  | none => none
  | some ts => (construct Λ ts es m).map fun r => (List.range es.length).map fun i => Got.see (get r.1 false .lv i) r.2

/-! "basic" -/
example : basic [] (mem []) = some [] := by decide
example : basic [lv .int 0] (mem [1]) = some [some (lref .int, 1)] := by decide
example : basic [lv .int 0, lv .double 1] (mem [1, 2]) = some [some (lref .int, 1), some (lref .double, 2)] := by decide
example : basic [lv .Empty 0] (mem [0]) = some [some (val .Empty, 0)] := by decide
example : basic [lv .Empty 0, lv .double 1] (mem [0, 2]) = some [some (val .Empty, 0), some (lref .double, 2)] := by decide
example : basic [lv .double 0, lv .Empty 1] (mem [2, 0]) = some [some (lref .double, 2), some (val .Empty, 0)] := by decide

/-! "lvalue_reference": `get<0>(t)` is `x` itself -/
example : (construct Λ [lref .int] [lv .int 0] (mem [0])).map (fun r => (get r.1 false .lv 0, r.2.next)) = some (.glvalue (lv .int 0), 1) := by decide

/-! "rvalue_reference": `get<0>(t)` is an object that `++` changes -/
example : (construct Λ [val .int] [rv .int 0] (mem [0])).map (fun r =>
    match get r.1 false .lv 0 with
    | .glvalue e => (e.type, (r.2.write e.addr (r.2.get e.addr + 1)).get e.addr)
    | _ => (val .int, 7)) = some (lref .int, 1) := by decide

/-! "CTAD" -/
example : ctad (fun _ => false) ([] : List (Expr B)) = some [] := by decide
example : ctad (fun _ => false) [rv .int 0] = some [val .int] := by decide
example : ctad (fun _ => false) [lv .int 0] = some [val .int] := by decide
example : ctad (fun _ => false) [clv .int 0] = some [val .int] := by decide

/-! "std::tuple_size_v" -/
def quals : List (Ty Unit) := [⟨(), false, false, .none⟩, ⟨(), false, false, .lref⟩, ⟨(), false, false, .rref⟩, ⟨(), true, false, .none⟩,
  ⟨(), true, false, .lref⟩, ⟨(), true, false, .rref⟩]
example : ∀ n ∈ [0, 1, 2, 3], ∀ q ∈ quals, tupleSize (List.replicate n (val .int)) q = some n := by decide

/-! "std::tuple_element_t" -/
example : (List.range 3).map (tupleElement [val .int, val .double, val .foo] ⟨(), false, false, .none⟩) = [some (val .int), some (val .double), some (val .foo)] := by
  decide
example : tupleElement [val .int] ⟨(), true, false, .none⟩ 0 = some ⟨.int, true, false, .none⟩ := by decide

/-! "pigro::get ADL": the types `std::get` has -/
def getAdl (c : Bool) (cat : Cat) : Option (Option (Ty B × Nat)) :=
  (construct Λ [val .int] [rv .int 0] (mem [0])).map fun r => Got.see (get r.1 c cat 0) r.2
example : getAdl false .lv = some (some (lref .int, 0)) := by decide
example : getAdl false .xv = some (some (rref .int, 0)) := by decide
example : getAdl true .lv = some (some (clref .int, 0)) := by decide
example : getAdl true .xv = some (some (crref .int, 0)) := by decide

/-! ### apply.test.cpp: "apply_t" -/

/-- `[](int, int, int) { return 4; }`, checking its arguments -/
def four (es : List (Expr B)) (m : Mem Nat Unit) : Nat × Mem Nat Unit := (if es.map (fun e => m.get e.addr) = [1, 2, 3] then 4 else 0, m)

example : (apply Λ four (.std [(val .int, 0), (val .int, 1), (val .int, 2)]) false .lv (mem [1, 2, 3])).map (·.1) = some 4 := by decide
example : ((construct Λ [val .int, val .int, val .int] [rv .int 0, rv .int 1, rv .int 2] (mem [1, 2, 3])).bind fun r =>
    (apply Λ four (.compressed r.1) false .lv r.2).map (·.1)) = some 4 := by decide

/-! ### to_tuple.test.cpp -/

/-- The element types of `to_tuple(t)` for a `compressed_tuple<ts...>` used as a (const) lvalue or xvalue -/
def toTupleTypes (ts : List (Ty B)) (c : Bool) (cat : Cat) : Option (List (Ty B)) :=
  match construct Λ ts ((List.range ts.length).map fun i => ⟨.int, ((ts[i]?.map (·.c)).getD false), false, .lv, i⟩) (mem [1, 2, 3]) with
  | none => none
  | some r => match toTuple Λ (.compressed r.1) c cat r.2 with
    | some (.std els, _) => some (els.map (·.1))
    | _ => none

/-! "empty_parameters" -/
example : ∀ c ∈ [false, true], ∀ cat ∈ [Cat.lv, Cat.xv], toTupleTypes [] c cat = some [] := by decide

/-! "single parameter (changing)" (skipped in the repository). As expected there: -/
example : toTupleTypes [val .int] false .lv = some [lref .int] := by decide
example : toTupleTypes [val .int] false .xv = some [rref .int] := by decide
example : toTupleTypes [lref .int] false .lv = some [lref .int] := by decide
example : toTupleTypes [rref .int] false .lv = some [lref .int] := by decide
example : toTupleTypes [rref .int] false .xv = some [rref .int] := by decide
example : toTupleTypes [clref .int] false .lv = some [clref .int] := by decide
example : toTupleTypes [crref .int] false .lv = some [clref .int] := by decide
example : toTupleTypes [crref .int] false .xv = some [crref .int] := by decide
example : toTupleTypes [val .int] true .lv = some [clref .int] := by decide
example : toTupleTypes [val .int] true .xv = some [crref .int] := by decide
example : toTupleTypes [lref .int] true .lv = some [clref .int] := by decide
example : toTupleTypes [lref .int] true .xv = some [crref .int] := by decide
example : toTupleTypes [rref .int] true .lv = some [clref .int] := by decide
example : toTupleTypes [rref .int] true .xv = some [crref .int] := by decide
example : toTupleTypes [clref .int] true .lv = some [clref .int] := by decide
example : toTupleTypes [clref .int] true .xv = some [crref .int] := by decide
example : toTupleTypes [crref .int] true .lv = some [clref .int] := by decide
example : toTupleTypes [crref .int] true .xv = some [crref .int] := by decide
/-! Different from what is expected there: `int &&` and `const int &&`; as with `std::get`, the model has lvalue references. -/
example : toTupleTypes [lref .int] false .xv = some [lref .int] := by decide
example : toTupleTypes [clref .int] false .xv = some [clref .int] := by decide

/-! ### bind_tuple.test.cpp -/

/-- A callable that returns something made of the values of its arguments. -/
def pure (f : List Nat → Nat) : Code B Nat Unit Nat := fun _ es m => (f (es.map fun e => m.get e.addr), m)

/-- `compressed_tuple{ vs... } >> f` (`<<`), called with `args`; `tb`: type of the tuple. Result and memory after the call. -/
def bindCall (tb : B) (dir : Dir) (vs : List (Expr B)) (f : Expr B) (code : Code B Nat Unit Nat) (args : List (Expr B)) (m : Mem Nat Unit) : Option Nat :=
  match makeBound Λ (fun b => b == .tuple) tb dir vs f m with
  | none => none
  | some (b, m1) => match b.call Λ (fun b => if b == .idx0 then some 0 else none) code false .lv args m1 with
    | .invoked r _ => some r
    | _ => none

/-! "stateless" -/
example : bindCall .etuple .front [lv .Empty 0] (rv .efn 1) (pure fun xs => xs.length) [] (mem [0, 0]) = some 1 := by decide
example : bindCall .etuple .front [lv .Empty 0, lv .Empty 0] (rv .efn 1) (pure fun xs => xs.length) [] (mem [0, 0]) = some 2 := by decide
/-! "stateful" -/
example : bindCall .tuple .front [rv .int 0] (rv .efn 1) (pure fun xs => xs.headD 0) [] (mem [1, 0]) = some 1 := by decide
example : bindCall .tuple .front [rv .int 0, rv .int 1, rv .int 2, rv .int 3] (rv .efn 4) (pure fun xs => xs.foldl (· + ·) 0) [] (mem [1, 2, 3, 4, 0]) = some 10 := by
  decide
/-! "extra_parameters" -/
example : bindCall .etuple .front [lv .Empty 0] (rv .efn 1) (pure fun xs => xs.length) [rv .int 2, rv .int 3] (mem [0, 0, 5, 6]) = some 3 := by decide
/-! "zero_args" -/
example : bindCall .etuple .front [] (rv .efn 0) (pure fun xs => xs.length) [] (mem [0]) = some 0 := by decide
/-! "size": `compressed_tuple{ x } >> [y = x](int x) { return x + y; }` -/
def plusOwn : Code B Nat Unit Nat := fun f es m => (m.get f.addr + (es.map fun e => m.get e.addr).foldl (· + ·) 0, m)
example : bindCall .tuple .front [lv .int 0] (rv .fn 1) plusOwn [] (mem [1, 1]) = some 2 := by decide
/-! "bind_back_tuple": `compressed_tuple{ 1 } << [](auto x, auto y) { return x - y; }`, called with 3 -/
def minus : List Nat → Nat
  | [x, y] => x - y
  | _ => 77
example : bindCall .tuple .back [rv .int 0] (rv .efn 1) (pure minus) [rv .int 2] (mem [1, 0, 3]) = some 2 := by decide

/-- "remember_state": `compressed_tuple<int &>{ x } >> [](auto &x) { return x++; }`, called `n` times -/
def rememberState : Nat → List (Option Nat)
  | n => match construct Λ [lref .int] [lv .int 0] (mem [0]) with
    | none => []
    | some (els, m1) =>
      match shiftRight Λ (rv .tuple m1.next) els (rv .efn (m1.next + 1)) ((m1.alloc 0).alloc 0) with
      | none => []
      | some (b, m2) =>
        let code : Code B Nat Unit Nat := fun _ es m => match es with
          | [x] => (m.get x.addr, m.write x.addr (m.get x.addr + 1))
          | _ => (77, m)
        ((List.range n).foldl (fun (s : List (Option Nat) × Mem Nat Unit) _ =>
          match b.call Λ (fun _ => none) code false .lv [] s.2 with
          | .invoked r m => (s.1 ++ [some r], m)
          | _ => (s.1 ++ [none], s.2)) ([], m2)).1
example : rememberState 3 = [some 0, some 1, some 2] := by decide

/-- `bind_back(f, back...)(front...)` -/
def backCall (f : Expr B) (back front : List (Expr B)) (code : Code B Nat Unit Nat) (m : Mem Nat Unit) : Nat :=
  let r := bindBack Λ f back m
  (r.1.call code front r.2).1

/-! "by_value", "perfect_forward_callable" (an rvalue callable), "lvalue_reference_callable" -/
example : backCall (lv .efn 0) [rv .int 1] [rv .int 2] (pure fun xs => xs.foldl (· + ·) 0) (mem [0, 1, 0]) = 1 := by decide
example : backCall (rv .efn 0) [rv .int 1] [rv .int 2] (pure fun xs => xs.foldl (· + ·) 0) (mem [0, 1, 0]) = 1 := by decide

/-! ### pack_algorithms.test.cpp -/

/-! "enumerate_pack" -/
def pack5 : List (Expr B) := [rv .int 0, rv .int 1, rv .int 2, rv .int 3, rv .int 4]
example : enumeratePack (fun items => (items.map (·.index)).foldl (· + ·) 0) pack5 = 10 := by decide
example : enumeratePack (fun items => (items.map fun i => (mem [1, 2, 3, 4, 5]).get i.value.addr).foldl (· + ·) 0) pack5 = 15 := by decide
/-! "tuple_should_remain_tuple" -/
example : enumeratePack (fun items => items.map (·.value)) [rv .tuple 0] = [rv .tuple 0] := by decide
/-! "enumerate_n" -/
example : (enumerateN (.int : B) id 5 (fun items m => ((items.map (·.index)).foldl (· + ·) 0, m)) (mem [])).1 = 10 := by decide
example : (enumerateN (.int : B) id 5 (fun items m => ((items.map fun i => m.get i.value.addr).foldl (· + ·) 0, m)) (mem [])).1 = 10 := by decide
/-! "value_categories" -/
example : enumeratePack (fun items => items.map fun i => i.type.isLref) [rv .int 0] = [false] := by decide
example : enumeratePack (fun items => items.map fun i => i.type.isLref) [lv .int 0] = [true] := by decide

/-! ### overload.test.cpp: "overload" -/

/-- Candidates `int`, `double`, `auto`; an argument of type `t` matches its own type exactly, converts to the others, and always fits `auto`. An exact match
that is not a template is best, then the template, then conversions. -/
def rank (t f : Nat) : Nat := if f = t then 0 else if f = 2 then 1 else 2
def pick (t : Nat) : Ovl.Pick Nat := Ovl.callOverload [0, 1, 2] (fun _ => true) (fun f g => decide (rank t f < rank t g))
example : pick 0 = .pick 0 ∧ pick 1 = .pick 1 ∧ pick 3 = .pick 2 := by decide
/-- The same with the reordered bases. -/
example : ∀ t ∈ [0, 1, 3], Ovl.callOverloadMsvc (· = 1) [0, 1, 2] (fun _ => true) (fun f g => decide (rank t f < rank t g)) = pick t := by decide

/-! ### partition.test.cpp -/

def list : List B := [.int, .foo, .Empty, .double, .Empty, .int]
example : TL.filterIf list (TL.predicate Λ.isEmpty) = [.Empty, .Empty] := by decide
example : TL.filterIf list (TL.predicate Λ.isEmpty).not = [.int, .foo, .double, .int] := by decide
example : TL.partition list (TL.predicate Λ.isEmpty) = [.Empty, .Empty, .int, .foo, .double, .int] := by decide
example : TL.partition [] (TL.predicate Λ.isEmpty) = [] := by decide

/-! ### recursive.test.cpp -/

/-- "recursive": Fibonacci numbers, `self` by value -/
def fibonacci : Rec.Fn Nat Nat Unit Unit :=
  ⟨true, fun n => if n < 2 then .ret 1 else .self (n - 2) fun a => .self (n - 1) fun b => .ret (a + b)⟩

def result : Option (Except Unit Nat × Unit) → Option Nat
  | some (.ok n, _) => some n
  | _ => none
example : (List.range 5).map (fun n => result (Rec.call fibonacci 9 () n)) = [some 1, some 1, some 2, some 3, some 5] := by decide

/-! "value_categories" and "perfect_forwarding": `self` and the callee as which they are used -/
def foo (c : Bool) (cat : Cat) : Expr B := ⟨.foo, c, false, cat, 0⟩
example : ∀ c ∈ [false, true], ∀ cat ∈ [Cat.lv, Cat.xv], recursiveCall (fun _ _ => true) (foo c cat) = some (foo c cat, foo c cat) := by decide

/-! ### utils.test.cpp: "as_nonconst" -/
example : asNonconst (foo false .lv) = some (foo false .lv) ∧ asNonconst (foo false .xv) = some (foo false .xv) ∧
    asNonconst (foo true .lv) = some (foo false .lv) ∧ asNonconst (foo true .xv) = some (foo false .xv) := by decide

/-! ### regular_void.test.cpp: "optional<regular_void>", with variables 0: `void_b`, 1: `void_c` -/
example : RV.run [] [.default, .ofValue, .neValue 0, .neValue 1, .ne 0 1] = [.none, .none, .bool true, .bool false, .bool true] := by decide

/-! ### tuple_algorithms.test.cpp -/

/-- `transform(t, logical_not{})` -/
def inverted (xs : List Bool) : List Bool := transform (fun _ => none) (!·) xs
example : inverted [] = [] ∧ inverted [false] = [true] ∧ inverted [true] = [false] ∧ inverted [false, true] = [true, false] ∧
    inverted [true, true] = [false, false] := by decide
example : any id ([] : List Bool) = false ∧ any id [false] = false ∧ any id [true] = true ∧ any id [false, false] = false ∧ any id [false, true] = true ∧
    any id [true, false] = true ∧ any id [true, true] = true := by decide

end Pigro.Cxx.Tests
