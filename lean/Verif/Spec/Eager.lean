import Verif.Spec.Tree
/-!
# Specification of lazy functions: results and minimal recomputation

Pure functions of the dependency tree and of what plain functions observe; no objects involved.
-/
namespace Pigro
variable {D W E S O : Type}

/-- `operator!=` never calls different values equal. -/
def SoundNe (D : Type) [CxxData D] : Prop := ∀ a b : D, CxxData.ne a b = false → a = b

/-- `operator!=` never calls a value different from itself (fails for a floating point NaN). -/
def ReflNe (D : Type) [CxxData D] : Prop := ∀ a : D, CxxData.ne a a = false

/-- What `x()` returns for a lazy function with tree `t`: nothing for a `void` function. -/
def Meaning.result (m : Meaning D W E S O) (o : O) : Tree D W E S → Option (Val D)
  | .lazy c deps => if c.ret = .val then some (m.eager o (.lazy c deps)) else none
  | t => some (m.eager o t)

/-- No lazy function has a tuple-valued dependency as its only dependency. -/
inductive Meaning.NoLone (m : Meaning D W E S O) : Tree D W E S → Prop
  | value (v : Val D) : m.NoLone (.value v)
  | function (c : FnCode D W E S) : m.NoLone (.function c)
  | lazy (c : FnCode D W E S) (deps : List (Tree D W E S)) :
      (∀ t, deps = [t] → ∀ o vs, m.eager o t ≠ .tup vs) → (∀ t ∈ deps, m.NoLone t) →
      m.NoLone (.lazy c deps)

/-- No function of the tree returns `void` or `regular_void`. -/
inductive Tree.NoVoid : Tree D W E S → Prop
  | value (v : Val D) : NoVoid (.value v)
  | function (c : FnCode D W E S) : c.ret = .val → NoVoid (.function c)
  | lazy (c : FnCode D W E S) (deps : List (Tree D W E S)) :
      c.ret = .val → (∀ t ∈ deps, NoVoid t) → NoVoid (.lazy c deps)

/-- Invocations of wrapped functions (with arguments) of a call in which nothing was evaluated before. -/
def Meaning.firstCalls (m : Meaning D W E S O) (o : O) :
    Tree D W E S → List (Nat × List (Val D))
  | .value _ => []
  | .function _ => []
  | .lazy c deps => (deps.map (m.firstCalls o)).flatten ++ [(c.id, deps.map (m.eager o))]

/-- Invocations of wrapped functions of a call at `o2` after the whole tree was last evaluated at `o1`:
exactly those with a dependency whose value differs. -/
def Meaning.recalc [CxxData D] (m : Meaning D W E S O) (o1 o2 : O) :
    Tree D W E S → List (Nat × List (Val D))
  | .value _ => []
  | .function _ => []
  | .lazy c deps => (deps.map (m.recalc o1 o2)).flatten ++
      if (deps.map fun d => Val.ne (m.eager o1 d) (m.eager o2 d)).any id
      then [(c.id, deps.map (m.eager o2))] else []

/-- Comparisons made by a call at `o2` after the whole tree was last evaluated at `o1`: every plain
function, and every lazy function with a dependency whose value differs, once, old value against new
value. -/
def Meaning.recmp [CxxData D] (m : Meaning D W E S O) (o1 o2 : O) :
    Tree D W E S → List (Val D × Val D)
  | .value _ => []
  | .function c => if c.ret = .val then
      [(m.eager o1 (.function c), m.eager o2 (.function c))] else []
  | .lazy c deps => (deps.map (m.recmp o1 o2)).flatten ++
      if (deps.map fun d => Val.ne (m.eager o1 d) (m.eager o2 d)).any id ∧ c.ret = .val
      then [(m.eager o1 (.lazy c deps), m.eager o2 (.lazy c deps))] else []

/-- All reads of results are of living objects: results are values, or every object they refer to is
part of the called object (and no `optional<regular_void>` is involved, whose dereferenced value is a
temporary). -/
def Glue.SafeFor (g : Glue) (t : Tree D W E S) : Prop :=
  g.resultByRef = false ∨
  (g.bindFrontCopies = false ∧ g.unwrapParamByValue = false ∧ g.facadeParamByValue = false ∧
    g.valueParamByValue = false ∧ t.NoVoid)

/-- Everything the call changes stays in the called object. -/
def Glue.Retains (g : Glue) : Prop :=
  g.bindFrontCopies = false ∧ g.coreParamsByValue = false ∧ g.unwrapParamByValue = false ∧
  g.facadeParamByValue = false

/-- Every call drops its effect on the cached values of the called object. -/
def Glue.Drops (g : Glue) : Prop :=
  g.bindFrontCopies = true ∨ g.unwrapParamByValue = true ∨ g.facadeParamByValue = true

/-- The functions of the tree behave according to `m`, no lone tuples, no dangling. -/
def TreeOk (g : Glue) (m : Meaning D W E S O) (t : Tree D W E S) : Prop :=
  m.Ok t ∧ m.NoLone t ∧ g.SafeFor t

/-- The operation evaluates variable `i`. -/
def Op.evaluates (i : Nat) : Op D W E S → Prop
  | .call j => j = i
  | .poll j => j = i
  | _ => False

/-- What the program has seen of each variable: the value its last evaluation returned (`rvoid` for a
`void` function). Computed from operations and their observable results only. -/
def track (l : List (Option (Val D))) : Op D W E S → Obs D E → List (Option (Val D))
  | .mk _ _, .unit => l ++ [none]
  | .copy i, .unit => match l[i]? with
    | some x => l ++ [x]
    | none => l
  | .call i, .ret (.ok (some v)) => l.set i (some v)
  | .call i, .ret (.ok none) => l.set i (some .rvoid)
  | .poll i, .polled (.ok r) => l.set i (some r.value)
  | _, _ => l

/-- `track` over a whole program and its results. -/
def trackAll (l : List (Option (Val D))) : List (Op D W E S) → List (Obs D E) →
    List (Option (Val D))
  | op :: ops, ob :: obs => trackAll (track l op ob) ops obs
  | _, _ => l

/-- The state a program leaves, started with world `w`. -/
abbrev after [CxxData D] (g : Glue) (w : W) (ops : List (Op D W E S)) : State D W E S :=
  (run g (State.init w) ops).2

/-- Outside changes of the world made by a program. -/
def pokes : List (Op D W E S) → W → W
  | [], w => w
  | .poke h :: ops, w => pokes ops (h w)
  | _ :: ops, w => pokes ops w

/-- Number of calls of variable `i` in a program. -/
def countCalls (i : Nat) : List (Op D W E S) → Nat
  | [] => 0
  | .call j :: ops => (if j = i then 1 else 0) + countCalls i ops
  | _ :: ops => countCalls i ops

/-- The outputs of a program part in which every call returns `r`. -/
def constOut (r : Obs D E) : Op D W E S → Obs D E
  | .call _ => r
  | _ => .unit

/-- `ChainFrom s l s'`: each step of `l` starts in the state the one before left; from `s` to `s'`. -/
inductive ChainFrom : S → List (S × S) → S → Prop
  | nil (s : S) : ChainFrom s [] s
  | cons (s s1 : S) {l s2} : ChainFrom s1 l s2 → ChainFrom s ((s, s1) :: l) s2

/-- The invocations of the callable with identity `x`: state found, state left. -/
def runsOf (x : Nat) (evs : List (Ev D S)) : List (S × S) :=
  ((runs evs).filter (fun r => r.1 == x)).map (·.2)

end Pigro
