import Verif.Model.History
/-!
# Specification: a lazy function is its function with a memory

What a lazy function remembers, and when it runs its function, said without caches in closures, flags or copies: for every dependency the value it had last, and the last result. The functions are
arbitrary: they may have state, read and change the world, and throw.
-/
namespace Pigro.Rem
variable {D W E S : Type}

/-- Values, plain functions, and lazy functions with what they remember: `last`, what the function returned last; `given`, what each dependency had as value when it was last asked. -/
inductive Node (D W E S : Type) where
  | value (v : Val D)
  | function (u : UFn D W E S)
  | lazy (u : UFn D W E S) (last : Option (Val D)) (given : List (Option (Val D))) (deps : List (Node D W E S))

/-- The world, and which functions have been run, with which arguments. -/
structure World (D W : Type) where
  w : W
  ran : List (Nat × List (Val D))

/-- Run a function. A `void` function has the value `rvoid`. -/
def apply (u : UFn D W E S) (args : List (Val D)) (s : World D W) : Except E (Val D) × UFn D W E S × World D W :=
  let r := u.run u.st args s.w
  (r.1.map u.ret.regularize, { u with st := r.2.1 }, ⟨r.2.2, s.ran ++ [(u.id, args)]⟩)

/-- Is the value another than the remembered one, in the sense of `operator!=`? -/
def differs [CxxData D] : Option (Val D) → Val D → Bool
  | none, _ => true
  | some a, b => Val.ne a b

/-- The arguments for these values of the dependencies: a tuple that is the only one is unpacked (C17). -/
def spread : List (Val D) → List (Val D)
  | [.tup vs] => vs
  | vs => vs

mutual
/-- Ask for the value. A lazy function asks its dependencies, from left to right, and runs its function if there is no result yet, or if one of the values differs from the one remembered. -/
def eval [CxxData D] : Node D W E S → World D W → Except E (Val D) × Node D W E S × World D W
  | .value v, s => (.ok v, .value v, s)
  | .function u, s =>
    match apply u [] s with
    | (r, u', s') => (r, .function u', s')
  | .lazy u last given deps, s =>
    match evalAll deps given s with
    | (.error e, deps', given', s') => (.error e, .lazy u last given' deps', s')
    | (.ok vs, deps', given', s') =>
      match last, (List.zipWith differs given vs).any id with
      | some r, false => (.ok r, .lazy u (some r) given' deps', s')
      | _, _ =>
        match apply u (spread vs) s' with
        | (.ok r, u', s'') => (.ok r, .lazy u' (some r) given' deps', s'')
        | (.error e, u', s'') => (.error e, .lazy u' last given' deps', s'')
/-- Ask dependencies, and remember their values, until one throws. -/
def evalAll [CxxData D] : List (Node D W E S) → List (Option (Val D)) → World D W → Except E (List (Val D)) × List (Node D W E S) × List (Option (Val D)) × World D W
  | [], _, s => (.ok [], [], [], s)
  | d :: ds, given, s =>
    match eval d s with
    | (.error e, d', s') => (.error e, d' :: ds, given, s')
    | (.ok v, d', s') =>
      match evalAll ds given.tail s' with
      | (r, ds', given', s'') => (r.map (v :: ·), d' :: ds', some v :: given', s'')
end

/-- The result a lazy function remembers. -/
def Node.last : Node D W E S → Option (Val D)
  | .lazy _ last _ _ => last
  | _ => none

/-- What a call returns to the client, of which nothing for `void`. -/
def Node.shown : Node D W E S → Val D → Option (Val D)
  | .lazy u _ _ _, v => if u.ret = .val then some v else none
  | _, v => some v

/-- A new lazy function: nothing is remembered. -/
def fresh (u : UFn D W E S) (deps : List (Node D W E S)) : Node D W E S := .lazy u none (deps.map fun _ => none) deps

/-- Dependencies as written by a client: variables are copied. Plain functions must not return `void`. -/
def dependency (vars : List (Node D W E S)) : ArgRef D W E S → Option (Node D W E S)
  | .value v => some (.value v)
  | .function u => if u.ret = .void then none else some (.function u)
  | .var i => vars[i]?

/-- All of them. -/
def dependencies (vars : List (Node D W E S)) : List (ArgRef D W E S) → Option (List (Node D W E S))
  | [] => some []
  | a :: as =>
    match dependency vars a, dependencies vars as with
    | some d, some ds => some (d :: ds)
    | _, _ => none

/-- What a client sees. -/
inductive Answer (D E : Type) where
  | unit
  | ret (r : Except E (Option (Val D)))
  | polled (r : Except E (Val D × Bool))
  | invalid

/-- One operation of a client program. `x(nullptr)` also says whether the value differs from the last one. -/
def step [CxxData D] (s : List (Node D W E S) × World D W) : Op D W E S → Answer D E × List (Node D W E S) × World D W
  | .mk f deps =>
    match dependencies s.1 deps with
    | some ds => (.unit, s.1 ++ [fresh f ds], s.2)
    | none => (.invalid, s)
  | .copy i =>
    match s.1[i]? with
    | some n => (.unit, s.1 ++ [n], s.2)
    | none => (.invalid, s)
  | .call i =>
    match s.1[i]? with
    | some n =>
      match eval n s.2 with
      | (r, n', s') => (.ret (r.map n.shown), s.1.set i n', s')
    | none => (.invalid, s)
  | .poll i =>
    match s.1[i]? with
    | some n =>
      match eval n s.2 with
      | (r, n', s') => (.polled (r.map fun v => (v, differs n.last v)), s.1.set i n', s')
    | none => (.invalid, s)
  | .poke h => (.unit, s.1, { s.2 with w := h s.2.w })

/-- A program. -/
def run [CxxData D] : List (Node D W E S) × World D W → List (Op D W E S) → List (Answer D E) × List (Node D W E S) × World D W
  | s, [] => ([], s)
  | s, op :: ops =>
    let r := step s op
    let rs := run r.2 ops
    (r.1 :: rs.1, rs.2)

/-! ### What of an execution of the library is compared -/

/-- The invocations in a log, with their arguments. -/
def ran : List (Ev D S) → List (Nat × List (Val D))
  | [] => []
  | .call _ id args _ _ :: evs => (id, args) :: ran evs
  | .cmp _ _ :: evs => ran evs

/-- What a client sees of the library's answer. `none`: undefined behaviour, or ill-formed. -/
def answer : Obs D E → Option (Answer D E)
  | .unit => some .unit
  | .ret (.ok v) => some (.ret (.ok v))
  | .ret (.thrown e) => some (.ret (.error e))
  | .polled (.ok r) => if r.live then some (.polled (.ok (r.value, r.isChanged))) else none
  | .polled (.thrown e) => some (.polled (.error e))
  | .invalid => some .invalid
  | _ => none

/-- The world and the invocations. -/
def view (env : Env D W S) : World D W := ⟨env.w, ran env.log⟩

end Pigro.Rem
