import Verif.Model.Lazy
/-!
# The handwritten program of the README

README.md:14 shows two programs side by side, without and with the library. The first (docs/comparison-handwritten.png; line numbers as in the picture) keeps
four optional values and a flag; this is a transcription.
-/
namespace Pigro
variable {D W E S : Type}

/-- The variables (lines 1-5), and the five functions with their own states (docs/comparison-handwritten.png, see README.md:14). -/
structure Hand (D W E S : Type) where
  shouldRender : Bool
  cachePos : Option (Val D)
  cacheIcon : Option (Val D)
  cacheFilename : Option (Val D)
  cacheMode : Option (Val D)
  pos : UFn D W E S
  mode : UFn D W E S
  name : UFn D W E S
  load : UFn D W E S
  render : UFn D W E S

/-- Lines 1-5 (docs/comparison-handwritten.png, see README.md:14). -/
def Hand.init (mode name load render pos : UFn D W E S) : Hand D W E S :=
  ⟨false, none, none, none, none, pos, mode, name, load, render⟩

/-- `cache != v` for a `std::optional` (lines 10, 16, 20, 24): different if there is nothing to compare with (docs/comparison-handwritten.png, see README.md:14). -/
def optNe [CxxData D] (cache : Option (Val D)) (v : Val D) : Bool :=
  match cache with
  | none => true
  | some x => Val.ne x v

/-- The comparison made by `cache != v` (docs/comparison-handwritten.png, see README.md:14). -/
def optCmp (cache : Option (Val D)) (v : Val D) : List (Ev D S) :=
  match cache with
  | none => []
  | some x => [.cmp x v]

/-- Outcome, variables and environment after a statement (docs/comparison-handwritten.png, see README.md:14). -/
abbrev HandRes (D W E S : Type) := Out E Unit × Hand D W E S × Env D W S

/-- Statements in sequence; an exception leaves the iteration (docs/comparison-handwritten.png, see README.md:14). -/
def HandRes.andThen (r : HandRes D W E S) (k : Hand D W E S → Env D W S → HandRes D W E S) : HandRes D W E S :=
  match r with
  | (.ok _, h, env) => k h env
  | (o, h, env) => (o, h, env)

/-- Lines 9-13 (docs/comparison-handwritten.png, see README.md:14). -/
def Hand.updatePos [CxxData D] (h : Hand D W E S) (env : Env D W S) : HandRes D W E S :=
  match h.pos.invoke .dep [] env with
  | (.error e, u, env1) => (.thrown e, { h with pos := u }, env1)
  | (.ok v, u, env1) =>
    let env2 := { env1 with log := env1.log ++ optCmp h.cachePos v }
    if optNe h.cachePos v then (.ok (), { h with pos := u, cachePos := some v, shouldRender := true }, env2)
    else (.ok (), { h with pos := u }, env2)

/-- Lines 23-28 (docs/comparison-handwritten.png, see README.md:14). -/
def Hand.updateIcon [CxxData D] (filename : Val D) (h : Hand D W E S) (env : Env D W S) : HandRes D W E S :=
  match h.load.invoke .fn [filename] env with
  | (.error e, u, env1) => (.thrown e, { h with load := u }, env1)
  | (.ok v, u, env1) =>
    let env2 := { env1 with log := env1.log ++ optCmp h.cacheIcon v }
    if optNe h.cacheIcon v then (.ok (), { h with load := u, cacheIcon := some v, shouldRender := true }, env2)
    else (.ok (), { h with load := u }, env2)

/-- Lines 19-29 (docs/comparison-handwritten.png, see README.md:14). -/
def Hand.updateFilename [CxxData D] (mode : Val D) (h : Hand D W E S) (env : Env D W S) : HandRes D W E S :=
  match h.name.invoke .fn [mode] env with
  | (.error e, u, env1) => (.thrown e, { h with name := u }, env1)
  | (.ok v, u, env1) =>
    let env2 := { env1 with log := env1.log ++ optCmp h.cacheFilename v }
    if optNe h.cacheFilename v then Hand.updateIcon v { h with name := u, cacheFilename := some v } env2
    else (.ok (), { h with name := u }, env2)

/-- Lines 15-30 (docs/comparison-handwritten.png, see README.md:14). -/
def Hand.updateMode [CxxData D] (h : Hand D W E S) (env : Env D W S) : HandRes D W E S :=
  match h.mode.invoke .dep [] env with
  | (.error e, u, env1) => (.thrown e, { h with mode := u }, env1)
  | (.ok v, u, env1) =>
    let env2 := { env1 with log := env1.log ++ optCmp h.cacheMode v }
    if optNe h.cacheMode v then Hand.updateFilename v { h with mode := u, cacheMode := some v } env2
    else (.ok (), { h with mode := u }, env2)

/-- Lines 32-34. `reset = false` is the picture; with `reset = true` the flag is taken back after rendering, which the picture never does. Dereferencing an
empty `std::optional` is undefined (docs/comparison-handwritten.png, see README.md:14). -/
def Hand.draw (reset : Bool) (h : Hand D W E S) (env : Env D W S) : HandRes D W E S :=
  if h.shouldRender then
    match h.cachePos, h.cacheIcon with
    | some p, some i =>
      match h.render.invoke .fn [p, i] env with
      | (.error e, u, env1) => (.thrown e, { h with render := u }, env1)
      | (.ok _, u, env1) => (.ok (), { h with render := u, shouldRender := !reset }, env1)
    | _, _ => (.ub, h, env)
  else (.ok (), h, env)

/-- One iteration of the loop (lines 9-34) (docs/comparison-handwritten.png, see README.md:14). -/
def Hand.frame [CxxData D] (reset : Bool) (h : Hand D W E S) (env : Env D W S) : HandRes D W E S :=
  ((h.updatePos env).andThen Hand.updateMode).andThen (Hand.draw reset)

/-- A program that makes iterations of `while (true)` (lines 8-35), between which the world changes (`some f`; an iteration is `none`): outcome and state after
some number of iterations. An exception leaves the loop, which has no handler (docs/comparison-handwritten.png, see README.md:14). -/
def whileTrue {σ : Type} (body : σ → Out E Unit × σ) (poke : (W → W) → σ → σ) : σ → List (Option (W → W)) → Out E Unit × σ
  | s, [] => (.ok (), s)
  | s, some f :: l => whileTrue body poke (poke f s) l
  | s, none :: l =>
    match body s with
    | (.ok _, s') => whileTrue body poke s' l
    | (o, s') => (o, s')

/-- The world changes (docs/comparison-handwritten.png, see README.md:14). -/
def Env.poke (f : W → W) (env : Env D W S) : Env D W S := { env with w := f env.w }

/-- The handwritten program: lines 1-5, then the loop (docs/comparison-handwritten.png, see README.md:14). -/
def handwritten [CxxData D] (reset : Bool) (mode name load render pos : UFn D W E S) (w : W) (l : List (Option (W → W))) :
    Out E Unit × Hand D W E S × Env D W S :=
  whileTrue (fun s => Hand.frame reset s.1 s.2) (fun f s => (s.1, s.2.poke f)) (Hand.init mode name load render pos, ⟨w, []⟩) l

end Pigro
