import Verif.Spec.Remember
/-!
# Specification: evaluation without any memory

What a lazy function would be if it were no more than an expression: evaluated anew every time, all of its functions being as they were when it was written.
-/
namespace Pigro.Fgt
variable {D W E S : Type}
open Rem

/-- Values, plain functions, and functions applied to these. -/
inductive Expr (D W E S : Type) where
  | value (v : Val D)
  | function (u : UFn D W E S)
  | app (u : UFn D W E S) (deps : List (Expr D W E S))

mutual
/-- Evaluate the dependencies from left to right, then run the function. Nothing is remembered, not even the state of the functions. -/
def eval : Expr D W E S → World D W → Except E (Val D) × World D W
  | .value v, s => (.ok v, s)
  | .function u, s => ((apply u [] s).1, (apply u [] s).2.2)
  | .app u deps, s =>
    match evalAll deps s with
    | (.error e, s') => (.error e, s')
    | (.ok vs, s') => ((apply u (spread vs) s').1, (apply u (spread vs) s').2.2)
/-- All of them, until one throws. -/
def evalAll : List (Expr D W E S) → World D W → Except E (List (Val D)) × World D W
  | [], s => (.ok [], s)
  | d :: ds, s =>
    match eval d s with
    | (.error e, s') => (.error e, s')
    | (.ok v, s') => ((evalAll ds s').1.map (v :: ·), (evalAll ds s').2)
end

/-- What a call returns to the client, of which nothing for `void`. -/
def Expr.shown : Expr D W E S → Val D → Option (Val D)
  | .app u _, v => if u.ret = .val then some v else none
  | _, v => some v

/-- Dependencies as written by a client. -/
def dependency (vars : List (Expr D W E S)) : ArgRef D W E S → Option (Expr D W E S)
  | .value v => some (.value v)
  | .function u => if u.ret = .void then none else some (.function u)
  | .var i => vars[i]?

/-- All of them. -/
def dependencies (vars : List (Expr D W E S)) : List (ArgRef D W E S) → Option (List (Expr D W E S))
  | [] => some []
  | a :: as =>
    match dependency vars a, dependencies vars as with
    | some d, some ds => some (d :: ds)
    | _, _ => none

/-- One operation of a client program: variables never change. Values always count as changed. -/
def step (s : List (Expr D W E S) × World D W) : Op D W E S → Answer D E × List (Expr D W E S) × World D W
  | .mk f deps =>
    match dependencies s.1 deps with
    | some ds => (.unit, s.1 ++ [.app f ds], s.2)
    | none => (.invalid, s)
  | .copy i =>
    match s.1[i]? with
    | some n => (.unit, s.1 ++ [n], s.2)
    | none => (.invalid, s)
  | .call i =>
    match s.1[i]? with
    | some n => (.ret ((eval n s.2).1.map n.shown), s.1, (eval n s.2).2)
    | none => (.invalid, s)
  | .poll i =>
    match s.1[i]? with
    | some n => (.polled ((eval n s.2).1.map fun v => (v, true)), s.1, (eval n s.2).2)
    | none => (.invalid, s)
  | .poke h => (.unit, s.1, { s.2 with w := h s.2.w })

/-- A program. -/
def run : List (Expr D W E S) × World D W → List (Op D W E S) → List (Answer D E) × List (Expr D W E S) × World D W
  | s, [] => ([], s)
  | s, op :: ops =>
    let r := step s op
    let rs := run r.2 ops
    (r.1 :: rs.1, rs.2)

end Pigro.Fgt
