import Verif.Model.Moving
/-!
# Specification: the same program without moves

Where a variable is moved to another one, only its name changes; a variable that goes out of scope is not mentioned any more. So a program that moves and destroys
lazy functions is a program of `Model/History.lean` in which all of them stay where they are.
-/
namespace Pigro
variable {D W E S : Type}

/-- What a variable of the program with moves is: the variable `k` of the program without, or moved from, or destroyed. -/
inductive Home where
  | holds (k : Nat)
  | movedFrom
  | gone
  deriving DecidableEq

/-- The variable meant, if it may be used. -/
def holder (hs : List Home) (i : Nat) : Option Nat :=
  match hs[i]? with
  | some (.holds k) => some k
  | _ => none

/-- The variables an argument mentions. -/
def MvArg.names : MvArg D W E S → List Nat
  | .arg (.var i) => [i]
  | .move i => [i]
  | _ => []

/-- The variables that are moved from. -/
def MvArg.moves : MvArg D W E S → List Nat
  | .move i => [i]
  | _ => []

/-- The argument in the program without moves. `none`: it mentions a variable it must not, or is a `void` function (does not compile). -/
def MvArg.plain (hs : List Home) : MvArg D W E S → Option (ArgRef D W E S)
  | .arg (.value v) => some (.value v)
  | .arg (.function u) => if u.ret = .void then none else some (.function u)
  | .arg (.var i) => (holder hs i).map .var
  | .move i => (holder hs i).map .var

/-- All of them. -/
def plainArgs (hs : List Home) : List (MvArg D W E S) → Option (List (ArgRef D W E S))
  | [] => some []
  | a :: as =>
    match a.plain hs, plainArgs hs as with
    | some b, some bs => some (b :: bs)
    | _, _ => none

/-- A variable that is moved from is mentioned only once in the call. -/
def movesApart (deps : List (MvArg D W E S)) : Bool :=
  (deps.flatMap MvArg.moves).all fun i => (deps.flatMap MvArg.names).count i == 1

/-- The program without moves, if there is one: variables are not used after having been moved from or destroyed, except that the former may be destroyed.
`hs`: what the variables are so far; `n`: the number of variables of the program without. -/
def unmoved : List Home → Nat → List (MvOp D W E S) → Option (List (Op D W E S))
  | _, _, [] => some []
  | hs, n, .mk f deps :: ops =>
    match plainArgs hs deps with
    | some as =>
      if movesApart deps then
        (unmoved ((deps.flatMap MvArg.moves).foldl (fun hs i => hs.set i .movedFrom) hs ++ [.holds n]) (n + 1) ops).map (.mk f as :: ·)
      else none
    | none => none
  | hs, n, .copy i :: ops =>
    match holder hs i with
    | some k => (unmoved (hs ++ [.holds n]) (n + 1) ops).map (.copy k :: ·)
    | none => none
  | hs, n, .move i :: ops =>
    match holder hs i with
    | some k => unmoved (hs.set i .movedFrom ++ [.holds k]) n ops
    | none => none
  | hs, n, .destroy i :: ops =>
    match hs[i]? with
    | some .gone => none
    | some _ => unmoved (hs.set i .gone) n ops
    | none => none
  | hs, n, .call i :: ops =>
    match holder hs i with
    | some k => (unmoved hs n ops).map (.call k :: ·)
    | none => none
  | hs, n, .poll i :: ops =>
    match holder hs i with
    | some k => (unmoved hs n ops).map (.poll k :: ·)
    | none => none
  | hs, n, .poke h :: ops => (unmoved hs n ops).map (.poke h :: ·)

/-- The observations of a program without moves, and `u` for every move and every end of a lifetime. -/
def withMoves {α : Type} (u : α) : List (MvOp D W E S) → List α → List α
  | .move _ :: ops, l => u :: withMoves u ops l
  | .destroy _ :: ops, l => u :: withMoves u ops l
  | _ :: ops, a :: l => a :: withMoves u ops l
  | _, _ => []

end Pigro
