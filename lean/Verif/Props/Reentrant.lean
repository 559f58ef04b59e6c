import Verif.Proofs.Reentrant
import Verif.Props.Demo
/-!
# C83: a wrapped function may call the lazy function it belongs to
-/
namespace Pigro.Re
variable {D W E S O : Type} [CxxData D]

/-- The model with reentrancy extends the one without: a function that does not call its own lazy function behaves as in `Model/Lazy.lean`, for any glue and in any
state of the object. -/
theorem C83_plain (g : Glue) (x : Node D W E S) (hp : x.f.Plain) (n : Nat) (env : Env D W S) :
    ∃ o x' env', call g (n + 1) x env = some (o, x', env') ∧ call0 g x.obj env = (o, x'.obj, env') :=
  have ⟨o, x', env', h1, h2, _⟩ := call_plain g x hp n env
  ⟨o, x', env', h1, h2⟩

/-- The bound on the depth is only that: a call that ends, ends the same with a larger one. -/
theorem C83_bound (g : Glue) (n k : Nat) (x : Node D W E S) (env : Env D W S) (r : Out E (Option (Val D)) × Node D W E S × Env D W S)
    (h : call g n x env = some r) : call g (n + k) x env = some r := by
  induction k with
  | zero => exact h
  | succ k ih => exact call_mono g _ _ _ _ ih

theorem made_inv (hs : SoundNe D) {g : Glue} (hg : g.Retains ∨ g.Drops) {m : Meaning D W E S O} {w : W} {ops : List (Op D W E S)} {as : List (ArgRef D W E S)}
    {us : List (Tree D W E S)} {ds : List (Obj D W E S)} (hmade : Made g w ops as us ds) (hok : ∀ t ∈ runTrees [] ops, TreeOk g m t) (f : RFn D W E S) :
    Inv m us f (make f ds) := by
  have hi := reach_inv g w ops
  obtain ⟨os, ho, hsh⟩ := (args_tree hi.shape hi.lz as).1 us hmade.1
  rw [hmade.2] at ho
  cases ho
  exact ⟨hsh, ConsL_of_zip m us ds hsh.length
    (args_built (cons_built m) hi.shape hi.lz (reach_cons hs g hg m w ops hok) as us ds hmade.1 hmade.2), Cache.empty_fits _, rfl⟩

/-- **C83** (partial: the design in which state is kept; of the pinned code it is false, see `C83_pinned`). `f` is an arbitrary function that may call its own lazy function
any number of times, depending on anything, and catch what those calls throw; it does not change what plain functions observe. The lazy function was made in any program,
of any dependencies, and has been called any number of times (`x`); then a call, in a world that plain functions observe as `ob`, has returned `a`. Whatever has happened to
the world since (`env2`):
* if no dependency has a different value, a call returns `a` again and `f` is not run;
* otherwise a call runs `f` once, on the current values of the dependencies; each call that `f` makes of its own lazy function returns `a`, the previous result. The calls
never go deeper than that.
-/
theorem C83_settled_partial (hs : SoundNe D) (hr : ReflNe D) (g : Glue) (hg : g.Retains) (m : Meaning D W E S O) (w : W) (ops : List (Op D W E S))
    (as : List (ArgRef D W E S)) (us : List (Tree D W E S)) (ds : List (Obj D W E S)) (hmade : Made g w ops as us ds)
    (hok : ∀ t ∈ runTrees [] ops, TreeOk g m t) (hd : Deps g m us) (f : RFn D W E S) (hcalm : ∀ st args w, Calm m (m.obs w) (f.body st args w))
    (x : Node D W E S) (hx : Later g (make f ds) x) (n : Nat) (env : Env D W S) (a : Option (Val D)) (x1 : Node D W E S) (env1 : Env D W S)
    (hcall : call g n x env = some (.ok a, x1, env1)) (k : Nat) (env2 : Env D W S) :
    let ob := m.obs env.w
    let ob2 := m.obs env2.w
    ((∀ t ∈ us, Val.ne (m.eager ob t) (m.eager ob2 t) = false) →
      ∃ x2 env3, call g (k + 1) x1 env2 = some (.ok a, x2, env3) ∧ fnCalls env3.log = fnCalls env2.log ++ (us.map (m.recalc ob ob2)).flatten) ∧
    ((∃ t ∈ us, Val.ne (m.eager ob t) (m.eager ob2 t) = true) →
      ∃ r st w' x2 env3, m.obs w' = ob2 ∧ Answered m a (f.body x1.f.st (us.map (m.eager ob2)) w') r st env3.w ∧
        call g (k + 2) x1 env2 = some (outcome f.ret r, x2, env3) ∧
        fnCalls env3.log = fnCalls env2.log ++ (us.map (m.recalc ob ob2)).flatten ++ [(f.id, us.map (m.eager ob2))] ∧
        (g.regParamByValue = false → x2.f.st = st)) := by
  intro ob ob2
  have hi := later_inv hs hg hd (made_inv hs (.inl hg) hmade hok f) hx
  obtain ⟨hi1, hc⟩ := call_inv hs hg hd _ _ _ _ _ _ hi hcall
  obtain ⟨_, hl, ha⟩ := hc hcalm
  obtain ⟨ha, he⟩ := ha a rfl
  refine ⟨fun hsame => ?_, fun hdiff => ?_⟩
  · obtain ⟨ds', env', h1, _, _, _, h5⟩ := call_skip hs hr hg hd k x1 env2 hi1 ob hl he hsame
    rw [ha] at h1
    exact ⟨_, _, h1, h5⟩
  · obtain ⟨r, st, w', x', env', h1, h2, h3, h4, h5⟩ := call_changed hs hr hg hd k x1 env2 hi1 ob hl he a ha hcalm hdiff
    refine ⟨r, st, w', x', env', h1, h2, h3, h4, fun hreg => ?_⟩
    rw [hreg] at h5
    exact h5

/-- **C83**, the other side: as long as there is no previous result, a function that begins by calling its own lazy function never ends (for every bound on the depth, it
goes deeper), in the retaining design and in any in which the object is copied. -/
theorem C83_bottomless (hs : SoundNe D) (g : Glue) (hg : g.Retains ∨ g.unwrapParamByValue = true ∨ g.facadeParamByValue = true) (m : Meaning D W E S O) (w : W)
    (ops : List (Op D W E S)) (as : List (ArgRef D W E S)) (us : List (Tree D W E S)) (ds : List (Obj D W E S)) (hmade : Made g w ops as us ds)
    (hok : ∀ t ∈ runTrees [] ops, TreeOk g m t) (hd : Deps g m us) (f : RFn D W E S) (hasks : f.Asks) (n : Nat) (env : Env D W S) :
    call g n (make f ds) env = none := by
  have hg' : g.Retains ∨ g.Drops := by
    rcases hg with hg | hg | hg
    · exact .inl hg
    · exact .inr (.inr (.inl hg))
    · exact .inr (.inr (.inr hg))
  have hi := made_inv hs hg' hmade hok f
  refine call_bottomless hs ?_ hd hasks n _ env hi.shape hi.cons rfl ?_
  · rcases hg with hg | hg | hg
    · exact .inl hg
    · exact .inr (by simp [copiesDeps, copiesAll, hg])
    · exact .inr (by simp [copiesDeps, copiesAll, hg])
  · show (Cache.empty f.ret : Cache D).engaged = false
    cases f.ret <;> rfl

/-- The pinned code: no call ends with a value, so no nested call ever answers; `C83_settled_partial` is vacuous for it. -/
theorem C83_pinned (n : Nat) (x : Node D W E S) (env env' : Env D W S) (o : Out E (Option (Val D))) (x' : Node D W E S)
    (h : call Glue.asWritten n x env = some (o, x', env')) : o.isOk = false := by
  have hans : ∀ c : Cache D, (answer (E := E) Glue.asWritten c).isOk = false := by
    intro c
    rcases c with (_ | _) | _ <;> rfl
  rcases n with _ | n
  · cases h
  · rw [call] at h
    rcases he : evalDeps Glue.asWritten x.deps env with ⟨q, ds', env1⟩
    rw [he] at h
    cases q with
    | ok rs =>
      simp only at h
      split at h
      · split at h
        · cases h; rfl
        · rename_i args _
          rcases hb : runBody Glue.asWritten (call Glue.asWritten n) (x.f.body x.f.st args env1.w)
            { x with deps := keep (copiesDeps Glue.asWritten) x.deps ds' } env1 with _ | ⟨q, st, x2, env2⟩
          · rw [hb] at h; cases h
          · rw [hb] at h
            cases q with
            | ok v => cases h; exact hans _
            | _ => cases h; rfl
      · cases h; exact hans _
    | _ => cases h; rfl

omit [CxxData D] in
theorem runBody_compiles (g : Glue) (self : Node D W E S → Env D W S → Option (Out E (Option (Val D)) × Node D W E S × Env D W S))
    (hs : ∀ x env r, self x env = some r → r.1 ≠ .illFormed) : ∀ (b : Body D W E S) (x : Node D W E S) (env : Env D W S) (r : Out E (Val D) × S × Node D W E S × Env D W S),
      runBody g self b x env = some r → r.1 ≠ .illFormed
  | .done (.ok v) st w, x, env, r, h => by rw [runBody] at h; cases h; simp
  | .done (.error e) st w, x, env, r, h => by rw [runBody] at h; cases h; simp
  | .again st w k, x, env, r, h => by
    rw [runBody] at h
    rcases hq : self { x with f := { x.f with st := keep (copiesFn g) x.f.st st } } { env with w := w } with _ | ⟨o, x', env'⟩
    · rw [hq] at h; cases h
    · rw [hq] at h
      cases o with
      | ok v => exact runBody_compiles g self hs _ x' env' r h
      | thrown e => exact runBody_compiles g self hs _ x' env' r h
      | ub => cases h; simp
      | illFormed => exact absurd rfl (hs _ _ _ hq)

/-- Calls of lazy functions from within their own functions are run-time behaviour: what compiles without them compiles with them, so a nested call that is undefined behaviour makes the call
undefined behaviour, not ill-formed. For every glue. -/
theorem C83_compiles (g : Glue) : ∀ (n : Nat) (x : Node D W E S) (env : Env D W S) (r : Out E (Option (Val D)) × Node D W E S × Env D W S), call g n x env = some r → r.1 ≠ .illFormed
  | 0, _, _, _, h => by cases h
  | n + 1, x, env, r, h => by
    have hans : ∀ c : Cache D, answer (E := E) g c ≠ .illFormed := by
      intro c
      unfold answer
      rcases c.deref with _ | v
      · simp
      · simp only; split <;> simp
    rw [call] at h
    have hd := evalDeps_wellFormed g x.deps env
    rcases he : evalDeps g x.deps env with ⟨q, ds', env1⟩
    rw [he] at h hd
    cases q with
    | ok rs =>
      simp only at h
      split at h
      · split at h
        · cases h; simp
        · split at h
          · cases h
          · rename_i o st x2 env2 hb
            have := runBody_compiles g (call g n) (C83_compiles g n) _ _ _ _ hb
            cases o with
            | ok v => cases h; exact hans _
            | illFormed => exact absurd rfl this
            | thrown e => cases h; simp [Out.map]
            | ub => cases h; simp [Out.map]
      · cases h; exact hans _
    | illFormed => exact absurd rfl hd
    | thrown e => cases h; simp [Out.map]
    | ub => cases h; simp [Out.map]

/-- A function without dependencies that calls its own lazy function unless the world is zero. -/
example : let f : RFn Int Int Nat Unit := { id := 20, ret := .val, body := fun st _ w => if w = 0 then .done (.ok (.data 1)) st w else .again st (w - 1) fun _ st w => .done (.ok (.data 2)) st w, st := () }
    (call .asWritten 3 (make f []) ⟨1, []⟩).map (fun r => match r.1 with | .ub => 0 | .illFormed => 1 | _ => 2) = some 0 := by decide +kernel

/-- And without dependencies, a function that asks its own lazy function never ends: there is never a previous result, however often it has been called. -/
theorem C83_pinned_bottomless (hs : SoundNe D) (f : RFn D W E S) (hasks : f.Asks) (n : Nat) (env : Env D W S) :
    call Glue.asWritten n (make f []) env = none :=
  C83_bottomless (O := Unit) hs Glue.asWritten (.inr (.inl rfl)) blind env.w [] [] [] [] ⟨rfl, rfl⟩ (by simp [runTrees])
    ⟨by simp, by simp⟩ f hasks n env

namespace Demo
open Pigro.Demo

abbrev Fn := RFn Int Int Nat Nat

/-- Adds its argument to its previous result; the first time there is none. -/
def accumulate : Fn where
  id := 20
  ret := .val
  body st args w :=
    if st = 0 then .done (.ok (.data ((args.map toInt).foldl (· + ·) 0))) 1 w
    else .again (st + 1) w fun a st' w' =>
      match a with
      | .ok (some v) => .done (.ok (.data (toInt v + (args.map toInt).foldl (· + ·) 0))) st' w'
      | .ok none => .done (.ok .rvoid) st' w'
      | .error e => .done (.error e) st' w'
  st := 0

theorem accumulate_calm (st : Nat) (args : List (Val Int)) (w : Int) : Calm canon (canon.obs w) (accumulate.body st args w) := by
  simp only [accumulate]
  split
  · exact .done _ _ _ rfl
  · refine .again _ _ _ rfl fun a st' w' hw => ?_
    rcases a with e | _ | v <;> exact .done _ _ _ hw

/-- `lazy(accumulate, rd)`. -/
def total : Node Int Int Nat Nat := make accumulate [detailLazy (.wrapDep rd) [.lazyValue (.data 0) true]]

theorem rd_deps : Deps Glue.retained canon [.function rd.toFnCode] where
  ok t ht := by
    simp at ht
    subst ht
    exact ⟨.function _ rd_ok, .function _, .inl rfl⟩
  lone t ht := by
    simp at ht
    subst ht
    exact not_tup _ (by intro o vs h; cases h)

/-- Calls in the given worlds, one after the other. -/
def series (g : Glue) (n : Nat) : Node Int Int Nat Nat → List Int → List (Ev Int Nat) → List (Option Int) × List (Nat × List Int)
  | _, [], log => ([], (fnCalls log).map fun c => (c.1, c.2.map toInt))
  | x, w :: ws, log =>
    match call g n x ⟨w, log⟩ with
    | some (.ok (some v), x', env') => let r := series g n x' ws env'.log; (some (toInt v) :: r.1, r.2)
    | _ => ([none], [])

/-- The first call, in world 5, returns 5. In world 7, a call returns 12; in world 7 again the same; in world 5 again, 17. -/
example : series Glue.retained 2 total [5, 7, 7, 5] [] =
    ([some 5, some 12, some 12, some 17], [(20, [5]), (20, [7]), (20, [5])]) := by decide +kernel

/-- `C83_settled_partial` for this function: the call in world `w2` after one in world `w1` that returned `a`, however deep the bound. -/
example (x : Node Int Int Nat Nat) (hx : Later Glue.retained total x) (n : Nat) (w1 w2 : Int) (l1 l2 : List (Ev Int Nat)) (a : Option (Val Int))
    (x1 : Node Int Int Nat Nat) (env1 : Env Int Int Nat) (h : call Glue.retained n x ⟨w1, l1⟩ = some (.ok a, x1, env1)) (hw : w1 ≠ w2) (k : Nat) :
    ∃ r st x2 env3, Answered canon a (accumulate.body x1.f.st [.data w2] w2) r st env3.w ∧
      call Glue.retained (k + 2) x1 ⟨w2, l2⟩ = some (outcome .val r, x2, env3) ∧ fnCalls env3.log = fnCalls l2 ++ [(20, [.data w2])] ∧ x2.f.st = st := by
  have he : ∀ o, canon.eager o (.function rd.toFnCode) = .data o := fun o => by rw [Meaning.eager]; rfl
  obtain ⟨r, st, w', x2, env3, h1, h2, h3, h4, h5⟩ := (C83_settled_partial soundNe reflNe Glue.retained ⟨rfl, rfl, rfl, rfl⟩ canon w1 [] [.function rd]
    [.function rd.toFnCode] _ ⟨rfl, rfl⟩ (by intro t ht; cases ht) rd_deps accumulate accumulate_calm x hx n ⟨w1, l1⟩ a x1 env1 h k ⟨w2, l2⟩).2
    ⟨.function rd.toFnCode, by simp, by
      simp only [he]
      simpa [canon, Val.ne, CxxData.ne] using hw⟩
  simp only [List.map_cons, List.map_nil, he, Meaning.recalc] at h1 h2 h4
  rw [show w' = w2 from h1] at h2
  exact ⟨r, st, x2, env3, h2, h3, by simpa [accumulate, canon] using h4, h5 rfl⟩

/-- Asks its own lazy function for the rest. -/
def greedy : Fn := ⟨21, .val, fun st _ w => .again st w fun _ st' w' => .done (.ok (.data 1)) st' w', 0⟩

example (n : Nat) (env : Env Int Int Nat) : call Glue.retained n (make greedy []) env = none :=
  C83_bottomless (O := Unit) soundNe Glue.retained (.inl ⟨rfl, rfl, rfl, rfl⟩) blind env.w [] [] [] [] ⟨rfl, rfl⟩ (by intro t ht; cases ht)
    ⟨by simp, by simp⟩ greedy (fun _ _ _ => ⟨_, _, _, rfl⟩) n env

example (n : Nat) (env : Env Int Int Nat) : call Glue.asWritten n (make greedy []) env = none :=
  C83_pinned_bottomless soundNe greedy (fun _ _ _ => ⟨_, _, _, rfl⟩) n env

end Demo

/-! ### Recursion through the world -/

/-- `n!` by recursion through the lazy function: the argument is in the world. -/
def factorial : RFn Int Nat Nat Unit where
  id := 1
  ret := .val
  body _ _ w := match w with
    | 0 => .done (.ok (.data 1)) () 0
    | n + 1 => .again () n fun a _ _ => match a with
      | .ok (some (.data v)) => .done (.ok (.data ((n + 1 : Nat) * v))) () (n + 1)
      | _ => .done (.error 0) () (n + 1)
  st := ()

/-- The factorials. -/
def fact : Nat → Int
  | 0 => 1
  | n + 1 => (n + 1 : Nat) * fact n

/-- The Fibonacci numbers by recursion through the lazy function. -/
def fibonacci : RFn Int Nat Nat Unit where
  id := 2
  ret := .val
  body _ _ w := match w with
    | 0 => .done (.ok (.data 0)) () 0
    | 1 => .done (.ok (.data 1)) () 1
    | n + 2 => .again () (n + 1) fun a _ _ => .again () n fun b _ _ => match a, b with
      | .ok (some (.data u)), .ok (some (.data v)) => .done (.ok (.data (u + v))) () (n + 2)
      | _, _ => .done (.error 0) () (n + 2)
  st := ()

/-- The Fibonacci numbers. -/
def fib : Nat → Int
  | 0 => 0
  | 1 => 1
  | n + 2 => fib (n + 1) + fib n

open Pigro.Demo

/-- One level of a recursion with an empty cache and no dependencies. -/
theorem call_fresh (g : Glue) (n : Nat) (f : RFn Int Nat Nat Unit) (env : Env Int Nat Unit) (hf : f.ret = .val) (v : Val Int) (c : Cache Int) (w : Nat)
    (l : List (Ev Int Unit)) (hc : ∃ q, c = .opt q) (hr : g.resultByRef = false)
    (h : runBody g (call g n) (f.body () [] env.w) ⟨f, .opt none, []⟩ env = some (.ok v, (), ⟨f, c, []⟩, ⟨w, l⟩)) :
    ∃ l', call g (n + 1) ⟨f, .opt none, []⟩ env = some (.ok (some v), ⟨f, keep (copiesCache g) c (.opt (some v)), []⟩, ⟨w, l'⟩) ∧
      fnCalls l' = fnCalls l ++ [(f.id, [])] ∧ cmps l' = cmps l ++ (c.val?.map fun o => (o, v)).toList := by
  obtain ⟨q, rfl⟩ := hc
  rcases f with ⟨id, ret, body, _⟩
  cases hf
  have hd : evalDeps g ([] : List (Obj Int Nat Nat Unit)) env = (.ok [], [], env) := by simp [evalDeps]
  have hv : readValues ([] : List (LazyRes Int)) = some [] := rfl
  rw [call, hd]
  simp only [Cache.engaged, Option.isSome_none, Bool.not_false, Bool.true_or, if_true, hv, keep_self]
  rw [show (() : Unit) = PUnit.unit from rfl] at h
  simp only [h]
  refine ⟨l ++ [.call .fn id [] () ()] ++ cmpEvents (.opt q) v, ?_, ?_, ?_⟩
  · simp only [RetTy.regularize, answer, Cache.assign, Cache.deref, Glue.coreLive, hr]
    rfl
  · simp [fnCalls_append, (cmpEvents_simple (S := Unit) (.opt q) v).2.2.1, fnCalls]
  · cases q <;> simp [cmps, cmpEvents, Cache.val?]

/-- With results by value, recursion with one nested call works in every design: `n + 1` invocations, and where the cache is kept each level compares its result with the one
that the level below has left there. -/
theorem C83_factorial (g : Glue) (hr : g.resultByRef = false) (n : Nat) (log : List (Ev Int Unit)) :
    ∃ x' env', call g (n + 1) (make factorial []) ⟨n, log⟩ = some (.ok (some (.data (fact n))), x', env') ∧
      fnCalls env'.log = fnCalls log ++ List.replicate (n + 1) (1, []) ∧
      cmps env'.log = cmps log ++ if copiesCache g then [] else (List.range n).map fun i => (.data (fact i), .data (fact (i + 1))) := by
  have key : ∀ n log, ∃ l', call g (n + 1) ⟨factorial, .opt none, []⟩ ⟨n, log⟩ =
        some (.ok (some (.data (fact n))), ⟨factorial, .opt (if copiesCache g then none else some (.data (fact n))), []⟩, ⟨n, l'⟩) ∧
      fnCalls l' = fnCalls log ++ List.replicate (n + 1) (1, []) ∧
      cmps l' = cmps log ++ if copiesCache g then [] else (List.range n).map fun i => (.data (fact i), .data (fact (i + 1))) := by
    intro n
    induction n with
    | zero =>
      intro log
      obtain ⟨l', h, hf, hc⟩ := call_fresh g 0 factorial ⟨0, log⟩ rfl (.data 1) (.opt none) 0 log ⟨_, rfl⟩ hr rfl
      refine ⟨l', ?_, hf, ?_⟩
      · rw [h]
        cases copiesCache g <;> rfl
      · rw [hc]
        cases copiesCache g <;> rfl
    | succ n ih =>
      intro log
      obtain ⟨l, h, hf, hc⟩ := ih log
      obtain ⟨l', h', hf', hc'⟩ := call_fresh g (n + 1) factorial ⟨n + 1, log⟩ rfl (.data (fact (n + 1))) _ (n + 1) l ⟨_, rfl⟩ hr (by
        simp only [factorial, runBody] at h ⊢
        simp only [h]
        rfl)
      refine ⟨l', ?_, ?_, ?_⟩
      · rw [h']
        cases copiesCache g <;> rfl
      · rw [hf', hf, List.append_assoc, show factorial.id = 1 from rfl, ← List.replicate_succ']
      · rw [hc', hc]
        cases copiesCache g
        · simp [Cache.val?, List.range_succ]
        · simp [Cache.val?]
  obtain ⟨l', h, hf, hc⟩ := key n log
  exact ⟨_, _, h, hf, hc⟩

/-- Throws at the bottom; the level above catches that and returns 100, the others add one. -/
def catcher : RFn Int Nat Nat Unit where
  id := 3
  ret := .val
  body _ _ w := match w with
    | 0 => .done (.error 7) () 0
    | n + 1 => .again () n fun a _ _ => match a with
      | .ok (some (.data v)) => .done (.ok (.data (v + 1))) () (n + 1)
      | .error 7 => .done (.ok (.data 100)) () (n + 1)
      | _ => .done (.error 0) () (n + 1)
  st := ()

/-- Exceptions of nested calls can be caught by the function that made them, and leave the cache empty. -/
theorem C83_caught (g : Glue) (hr : g.resultByRef = false) (n : Nat) (log : List (Ev Int Unit)) :
    ∃ x' env', call g (n + 2) (make catcher []) ⟨n + 1, log⟩ = some (.ok (some (.data (100 + n))), x', env') ∧
      fnCalls env'.log = fnCalls log ++ List.replicate (n + 2) (3, []) := by
  have bottom : ∀ log, call g 1 ⟨catcher, .opt none, []⟩ ⟨0, log⟩ =
      some (.thrown 7, ⟨catcher, .opt none, []⟩, ⟨0, log ++ [.call .fn 3 [] () ()]⟩) := by
    intro log
    have hd : evalDeps g ([] : List (Obj Int Nat Nat Unit)) ⟨0, log⟩ = (.ok [], [], ⟨0, log⟩) := by simp [evalDeps]
    have hv : readValues ([] : List (LazyRes Int)) = some [] := rfl
    rw [call, hd]
    simp only [Cache.engaged, Option.isSome_none, Bool.not_false, Bool.true_or, if_true, hv, keep_self, catcher, runBody]
    rfl
  have key : ∀ n log, ∃ c l', (∃ q, c = .opt q) ∧ call g (n + 2) ⟨catcher, .opt none, []⟩ ⟨n + 1, log⟩ =
        some (.ok (some (.data (100 + n))), ⟨catcher, c, []⟩, ⟨n + 1, l'⟩) ∧
      fnCalls l' = fnCalls log ++ List.replicate (n + 2) (3, []) := by
    intro n
    induction n with
    | zero =>
      intro log
      have h := bottom log
      obtain ⟨l', h', hf, _⟩ := call_fresh g 1 catcher ⟨1, log⟩ rfl (.data 100) (.opt none) 1 (log ++ [.call .fn 3 [] () ()]) ⟨_, rfl⟩ hr (by
        simp only [catcher, runBody] at h ⊢
        simp only [h]
        rfl)
      refine ⟨_, l', ?_, h', ?_⟩
      · cases copiesCache g <;> exact ⟨_, rfl⟩
      · rw [hf, fnCalls_append, List.append_assoc]
        rfl
    | succ n ih =>
      intro log
      obtain ⟨c, l, hc, h, hf⟩ := ih log
      obtain ⟨l', h', hf', _⟩ := call_fresh g (n + 2) catcher ⟨n + 2, log⟩ rfl (.data (100 + (n : Int) + 1)) c (n + 2) l hc hr (by
        simp only [catcher, runBody] at h ⊢
        simp only [h]
        rfl)
      refine ⟨_, l', ?_, h', ?_⟩
      · obtain ⟨q, rfl⟩ := hc
        cases copiesCache g <;> exact ⟨_, rfl⟩
      · rw [hf', hf, List.append_assoc, show catcher.id = 3 from rfl, ← List.replicate_succ']
  obtain ⟨c, l', _, h, hf⟩ := key n log
  exact ⟨_, _, h, hf⟩

/-- A call without dependencies of an object that has a value. -/
theorem call_cached (g : Glue) (n : Nat) (f : RFn Int Nat Nat Unit) (env : Env Int Nat Unit) (v : Val Int) (hr : g.resultByRef = false) :
    call g (n + 1) ⟨f, .opt (some v), []⟩ env = some (.ok (some v), ⟨f, .opt (some v), []⟩, env) := by
  have hd : evalDeps g ([] : List (Obj Int Nat Nat Unit)) env = (.ok [], [], env) := by simp [evalDeps]
  rw [call, hd]
  simp only [Cache.engaged, Option.isSome_some, answer, Cache.deref, Glue.coreLive, hr, keep_self]
  rfl

/-- Recursion with two nested calls does not: in the retaining design the second nested call finds the value of the first in the cache, so that the Fibonacci function
computes powers of two. -/
theorem C83_stale_answer (g : Glue) (hg : g.Retains) (hr : g.resultByRef = false) (n : Nat) (log : List (Ev Int Unit)) :
    ∃ x' env', call g (n + 1) (make fibonacci []) ⟨n + 1, log⟩ = some (.ok (some (.data (2 ^ n))), x', env') := by
  have hcc := (retains_copies hg).2.2.1
  have key : ∀ n log, ∃ l', call g (n + 1) ⟨fibonacci, .opt none, []⟩ ⟨n + 1, log⟩ =
      some (.ok (some (.data (2 ^ n))), ⟨fibonacci, .opt (some (.data (2 ^ n))), []⟩, ⟨n + 1, l'⟩) := by
    intro n
    induction n with
    | zero =>
      intro log
      obtain ⟨l', h, _⟩ := call_fresh g 0 fibonacci ⟨1, log⟩ rfl (.data 1) (.opt none) 1 log ⟨_, rfl⟩ hr rfl
      rw [hcc] at h
      exact ⟨l', h⟩
    | succ n ih =>
      intro log
      obtain ⟨l, h⟩ := ih log
      have h2 := call_cached g n fibonacci ⟨n, l⟩ (.data (2 ^ n)) hr
      obtain ⟨l', h', _⟩ := call_fresh g (n + 1) fibonacci ⟨n + 2, log⟩ rfl (.data (2 ^ n + 2 ^ n)) (.opt (some (.data (2 ^ n)))) (n + 2) l ⟨_, rfl⟩ hr (by
        simp only [fibonacci, runBody] at h h2 ⊢
        simp only [h]
        simp only [runBody, h2])
      rw [hcc] at h'
      refine ⟨l', ?_⟩
      rw [show (2 : Int) ^ (n + 1) = 2 ^ n + 2 ^ n by rw [Int.pow_succ]; omega]
      exact h'
  obtain ⟨l', h⟩ := key n log
  exact ⟨_, _, h⟩

/-- Where the cache is never kept (the pinned code, if only its results were values), it computes them. -/
theorem C83_uncached (g : Glue) (hg : g.Drops) (hr : g.resultByRef = false) (n k : Nat) (log : List (Ev Int Unit)) :
    ∃ x' env', call g (n + k + 1) (make fibonacci []) ⟨n, log⟩ = some (.ok (some (.data (fib n))), x', env') := by
  have hcc : copiesCache g = true := by
    rcases hg with h | h | h <;> simp [copiesCache, copiesAll, h]
  have key : ∀ n k log, ∃ l', call g (n + k + 1) ⟨fibonacci, .opt none, []⟩ ⟨n, log⟩ =
      some (.ok (some (.data (fib n))), ⟨fibonacci, .opt none, []⟩, ⟨n, l'⟩) := by
    intro n
    induction n using Nat.strongRecOn with
    | _ n ih =>
      intro k log
      match n with
      | 0 =>
        obtain ⟨l', h, _⟩ := call_fresh g (0 + k) fibonacci ⟨0, log⟩ rfl (.data 0) (.opt none) 0 log ⟨_, rfl⟩ hr rfl
        rw [hcc] at h
        exact ⟨l', h⟩
      | 1 =>
        obtain ⟨l', h, _⟩ := call_fresh g (1 + k) fibonacci ⟨1, log⟩ rfl (.data 1) (.opt none) 1 log ⟨_, rfl⟩ hr rfl
        rw [hcc] at h
        exact ⟨l', h⟩
      | n + 2 =>
        obtain ⟨l1, h1⟩ := ih (n + 1) (by omega) k log
        obtain ⟨l2, h2⟩ := ih n (by omega) (k + 1) l1
        rw [show n + 1 + k + 1 = n + 2 + k by omega] at h1
        rw [show n + (k + 1) + 1 = n + 2 + k by omega] at h2
        obtain ⟨l', h, _⟩ := call_fresh g (n + 2 + k) fibonacci ⟨n + 2, log⟩ rfl (.data (fib (n + 1) + fib n)) (.opt none) (n + 2) l2 ⟨_, rfl⟩ hr (by
          simp only [fibonacci, runBody] at h1 h2 ⊢
          simp only [h1]
          simp only [runBody, h2])
        rw [hcc] at h
        exact ⟨l', h⟩
  obtain ⟨l', h⟩ := key n k log
  exact ⟨_, _, h⟩

example : fib 10 = 55 ∧ (2 : Int) ^ 9 = 512 ∧ fact 5 = 120 := ⟨rfl, rfl, rfl⟩

end Pigro.Re
