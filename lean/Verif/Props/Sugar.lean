import Verif.Proofs.Sugar
import Verif.Props.CallOnce
/-!
# C74: a value as dependency is short for a lazy function that returns it

docs/walkthrough/syntactic_sugar.md: `lazy(f, value)` is `lazy(f, lazy([=] { return value; }))`. The library has no such lambda: lazy.h:88-90 and :69-76 make an
object that always answers with the value and "not changed".
-/
namespace Pigro
open Demo
variable {D W E S : Type} [CxxData D]

/-- **C74.** Take any program that compiles, and write every value dependency as a lazy function returning the value: a new variable before the statement
(`desugar`). Both programs return the same results, flags and exceptions in the statements they share, invoke the same functions in the same order with the same
arguments and own states, make the same comparisons and leave the same world; the other one only calls the lambdas in addition. For all programs, functions (pure or
not, throwing or not), values (tuples and `regular_void` included), comparisons; for the pinned code and for code that keeps everything a call changes. -/
theorem C74_same (g : Glue) (hg : g.AllOrNothing) (hl : g.EquallyLive) (k : Nat) (s : S) (ops : List (Op D W E S)) (hid : ∀ f ∈ wrappedFns ops, f.id ≠ k)
    (w : W) (hok : ∀ o ∈ (run g (State.init w) ops).1, o ≠ .invalid) :
    let t := desugar (lambdas k s) [] 0 ops
    let a := run g (State.init w) ops
    let b := run g (State.init w) (t.map (·.2))
    marked (t.map (·.1)) b.1 = a.1 ∧ b.2.env.w = a.2.env.w ∧ withoutConstants k b.2.env.log = a.2.env.log :=
  sugar_sim (pre := []) g hg hl (lambdas k s) k (lambdas_yield k s) (fun _ _ => rfl) ops [] [] (State.init w) (State.init w) ⟨rfl, by simp, rfl, by simp, by simp⟩ ⟨rfl, rfl⟩ hid hok

/-- `C74_same` speaks about the pinned code. -/
theorem C74_pinned (k : Nat) (s : S) (ops : List (Op D W E S)) (hid : ∀ f ∈ wrappedFns ops, f.id ≠ k)
    (w : W) (hok : ∀ o ∈ (run .asWritten (State.init w) ops).1, o ≠ .invalid) :
    let t := desugar (lambdas k s) [] 0 ops
    let a := run .asWritten (State.init w) ops
    let b := run .asWritten (State.init w) (t.map (·.2))
    marked (t.map (·.1)) b.1 = a.1 ∧ b.2.env.w = a.2.env.w ∧ withoutConstants k b.2.env.log = a.2.env.log :=
  C74_same .asWritten (.inl rfl) (fun _ => ⟨rfl, rfl⟩) k s ops hid w hok

omit [CxxData D] in
/-- The program without value dependencies has none, indeed. -/
theorem C74_no_values (k : Nat) (s : S) (ops : List (Op D W E S)) (ren : List Nat) (n : Nat) :
    ∀ op ∈ (desugar (lambdas k s) ren n ops).map (·.2), ∀ f deps, op = .mk f deps → ∀ v, ArgRef.value v ∉ deps := by
  have hdeps : ∀ (ren : List Nat) (as : List (ArgRef D W E S)) (n : Nat),
      (∀ op ∈ (desugarDeps (lambdas k s) ren n as).1, ∃ v, op = .mk (constant k s v) []) ∧ ∀ v, ArgRef.value v ∉ (desugarDeps (lambdas k s) ren n as).2.1 := by
    intro ren as
    induction as with
    | nil => intro n; simp [desugarDeps]
    | cons a as ih =>
      intro n
      cases a with
      | value v =>
        obtain ⟨h1, h2⟩ := ih (n + 1)
        simp only [desugarDeps, List.mem_cons]
        refine ⟨?_, fun x => by simp [h2 x]⟩
        rintro op (rfl | hop)
        · exact ⟨v, rfl⟩
        · exact h1 op hop
      | function u => obtain ⟨h1, h2⟩ := ih n; simp only [desugarDeps, List.mem_cons]; exact ⟨h1, fun x => by simp [h2 x]⟩
      | var i => obtain ⟨h1, h2⟩ := ih n; simp only [desugarDeps, List.mem_cons]; exact ⟨h1, fun x => by simp [h2 x]⟩
  induction ops generalizing ren n with
  | nil => simp [desugar]
  | cons op ops ih =>
    cases op with
    | mk f deps =>
      obtain ⟨h1, h2⟩ := hdeps ren deps n
      intro op hop f' deps' he v hv
      simp only [desugar, List.map_append, List.map_map, List.map_cons, List.mem_append, List.mem_cons] at hop
      rcases hop with hop | rfl | hop
      · obtain ⟨x, hx⟩ := h1 op (by simpa [Function.comp_def] using hop)
        subst he
        cases hx
        simp at hv
      · cases he
        exact h2 v hv
      · exact ih _ _ op hop f' deps' he v hv
    | copy i =>
      intro op hop f' deps' he v hv
      simp only [desugar, List.map_cons, List.mem_cons] at hop
      rcases hop with rfl | hop
      · cases he
      · exact ih _ _ op hop f' deps' he v hv
    | call i =>
      intro op hop f' deps' he v hv
      simp only [desugar, List.map_cons, List.mem_cons] at hop
      rcases hop with rfl | hop
      · cases he
      · exact ih _ _ op hop f' deps' he v hv
    | poll i =>
      intro op hop f' deps' he v hv
      simp only [desugar, List.map_cons, List.mem_cons] at hop
      rcases hop with rfl | hop
      · cases he
      · exact ih _ _ op hop f' deps' he v hv
    | poke h =>
      intro op hop f' deps' he v hv
      simp only [desugar, List.map_cons, List.mem_cons] at hop
      rcases hop with rfl | hop
      · cases he
      · exact ih _ _ op hop f' deps' he v hv

/-- If caches were kept and dependencies not (by-value parameters in lazy.h:50, called in place), the two would differ: the lambda would be asked for the first
time in every call. -/
theorem C74_mixed : let g : Glue := { Glue.retained with coreParamsByValue := true }
    let ops : List (Op Int Int Nat Nat) := [.mk renderAt [.value (.data 3), .value (.data 4)], .call 0, .call 0]
    drawn 25 (run g (State.init 0) ops).2.env.log = 1 ∧ drawn 25 (run g (State.init 0) ((desugar (lambdas 99 0) [] 0 ops).map (·.2))).2.env.log = 2 := by decide +kernel

/-- syntactic_sugar.md:4 and variations: a value and a function; a lazy function and a value; a lone tuple; `regular_void`; a copy in between; functions with own
state, one of which throws. -/
def Demo.sugarOps : List (Op Int Int Nat Nat) :=
  [.mk renderAt [.function getPos, .value (.data 7)], .mk getName [.value (.tup [.data 1, .data 2])], .call 0, .copy 0, .poke (· + 1),
   .mk renderAt [.var 0, .value .rvoid, .function getModeOr, .var 1], .call 3, .poke (· + 1000), .call 3, .poll 2, .poke (· - 1000), .poll 3, .call 0]

/-- What it looks like without values. -/
example : (desugar (lambdas 99 0) [] 0 sugarOps).map (fun x => match x.2 with
    | .mk f deps => (f.id, deps.map fun d => match d with | .var i => some i | _ => none)
    | .copy i => (0, [some i]) | .call i => (1, [some i]) | .poll i => (2, [some i]) | .poke _ => (3, [])) =
  [(99, []), (25, [none, some 0]), (99, []), (23, [some 2]), (1, [some 1]), (0, [some 1]), (3, []), (99, []), (25, [some 1, some 5, none, some 3]), (1, [some 6]),
   (3, []), (1, [some 6]), (2, [some 4]), (3, []), (2, [some 6]), (1, [some 1])] := by decide +kernel

/-- `C74_same` for it, if everything is kept. -/
example (w : Int) (hok : ∀ o ∈ (run .retained (State.init w) sugarOps).1, o ≠ .invalid) :
    withoutConstants 99 (run .retained (State.init w) ((desugar (lambdas 99 0) [] 0 sugarOps).map (·.2))).2.env.log = (run .retained (State.init w) sugarOps).2.env.log :=
  (C74_same .retained (.inr ⟨rfl, rfl, rfl, rfl⟩) (by intro h; cases h) 99 0 sugarOps (by intro f hf; simp [sugarOps, wrappedFns] at hf; rcases hf with rfl | rfl | rfl <;> decide)
    w hok).2.2

/-- The program compiles, and does something: five renderings, an exception. -/
example : let r := (run .retained (State.init 0) sugarOps)
    r.1.all (fun o => match o with | .invalid => false | _ => true) = true ∧ drawn 25 r.2.env.log = 5 ∧
    r.1.map (fun o => match o with | .ret (.thrown e) => e | _ => 0) = [0, 0, 0, 0, 0, 0, 0, 0, 4, 0, 0, 0, 0] ∧
    drawn 99 (run .retained (State.init 0) ((desugar (lambdas 99 0) [] 0 sugarOps).map (·.2))).2.env.log = 3 := by decide +kernel

/-- `C74_pinned` for it. -/
example (w : Int) (hok : ∀ o ∈ (run .asWritten (State.init w) sugarOps).1, o ≠ .invalid) :
    withoutConstants 99 (run .asWritten (State.init w) ((desugar (lambdas 99 0) [] 0 sugarOps).map (·.2))).2.env.log = (run .asWritten (State.init w) sugarOps).2.env.log :=
  (C74_pinned 99 0 sugarOps (by intro f hf; simp [sugarOps, wrappedFns] at hf; rcases hf with rfl | rfl | rfl <;> decide) w hok).2.2

end Pigro
