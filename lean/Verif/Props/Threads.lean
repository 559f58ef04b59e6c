import Verif.Proofs.ThreadsSerial
/-!
# C85: calls from several threads

Full claim: threads may call lazy functions at the same time, the same or different ones, without a data race, and every call returns what it would return alone.

It holds of the pinned code (`C85_as_written`), which does not keep anything a call has changed, so that there is nothing to race for (but its calls are undefined for other reasons, C16). If calls keep what they
calculate, it holds of calls of different objects (`C85_distinct_partial`) and of calls that calculate nothing (`C85_settled_partial`), and of nothing else: two threads that call the same object race exactly if the
call calculates something (`C85_same_iff`): the first call (`C85_first_races`), and every call if a plain function is among the dependencies (`C85_polls_race`). Making the accesses to each cache atomic does not help
(`C85_stale`); a lock around whole calls does (`C85_locked`).
-/
namespace Pigro.Thr
variable {D W E S ι : Type} [CxxData D] [DecidableEq ι]

/-- If objects are handed over by value, calls from any number of threads, of the same or of different objects, never race; they leave memory alone; and if functions only read the world, each call returns what it
returns alone. -/
theorem C85_as_written {g : Glue} (hg : g.facadeParamByValue = true) (p : ι → Loc) (o : ι → Obj D W E S) (s : Sys D W E S ι (Out E (Option (Val D))))
    (hs : ∀ i, s.thr i = callV g (p i) (.unregularized (o i))) :
    RaceFree s ∧ (∀ is, (exec s is).mem = s.mem) ∧
      ((∀ i, ∀ u ∈ fns (o i), Pure u) → (∀ i, load s.mem (p i) (o i) = o i) → ∀ i, Returns s i (call0 g (.unregularized (o i)) s.env).1) := by
  have hin : ∀ i, (s.thr i).Inside (p i <:+ ·) (fun _ => False) (· ∈ fns (.unregularized (o i))) fun _ => True := fun i => hs i ▸ callV_inside g _ _
  refine ⟨?_, ?_, ?_⟩
  · refine raceFree_inside (R := fun i => (p i <:+ ·)) (Wr := fun _ _ => False) (fun i => (hin i).mono (fun _ h => h) (fun _ h => h) (fun _ _ => trivial) fun _ h => h) ?_
    intro i j l _ h
    exact h.elim
  · intro is
    exact exec_readonly (R := fun _ => True) (Q := fun _ => True) (Post := fun _ => True) is s fun i => (hin i).mono (fun _ _ => trivial) (fun _ h => h) (fun _ _ => trivial) fun _ h => h
  · intro hp hm i
    have hpure : ∀ i, (s.thr i).Calls Pure := fun i => (hin i).calls fun u hu => hp i u (by rw [fns] at hu; exact hu)
    have hsep : Separate s := separate_inside (R := fun i => (p i <:+ ·)) (Wr := fun _ _ => False) (Q := fun _ => True)
      (fun i => (hin i).mono (fun _ h => h) (fun _ h => h) (fun _ _ => trivial) fun _ h => h) fun _ _ _ _ h => h.elim
    have h := returns_separate hpure hsep i
    have hr := (callV_run hg (o i) (p i) s.mem s.env (by unfold SameRV; rw [hm i])).1
    rw [load, hm i] at hr
    rw [hr, ← hs i]
    exact h

/-- The pinned code is such a case. -/
theorem C85_pinned (p : ι → Loc) (o : ι → Obj D W E S) (s : Sys D W E S ι (Out E (Option (Val D)))) (hs : ∀ i, s.thr i = callV Glue.asWritten (p i) (.unregularized (o i))) : RaceFree s :=
  (C85_as_written rfl p o s hs).1

/-- A thread that is not interrupted does what a call does in a program with one thread, to its object and to nothing else. -/
theorem C85_alone {g : Glue} (hg : g.Retains) (p : Loc) (o : Obj D W E S) (s : Sys D W E S ι (Out E (Option (Val D)))) (i : ι) (hs : s.thr i = callR g p o) (hm : load s.mem p o = o)
    (hc : ∀ u ∈ fns o, Const u) :
    ∃ N, ∀ n, N ≤ n → (exec s (List.replicate n i)).thr i = .ret (call0 g o s.env).1 ∧ load (exec s (List.replicate n i)).mem p o = (call0 g o s.env).2.1 ∧
      (exec s (List.replicate n i)).env = (call0 g o s.env).2.2 ∧ (∀ q, ¬ p <:+ q → (exec s (List.replicate n i)).mem q = s.mem q) ∧ ∀ j, j ≠ i → (exec s (List.replicate n i)).thr j = s.thr j := by
  obtain ⟨N, hN⟩ := alone_done s.mem s.env (s.thr i)
  obtain ⟨h1, h2⟩ := callR_run hg o p s.mem s.env hc (by unfold SameRV; rw [hm])
  rw [hm] at h1
  refine ⟨N, fun n hn => ?_⟩
  rw [exec_replicate, hN n hn, hs, h1]
  exact ⟨by simp, rfl, rfl, h2, fun j hj => by simp [hj]⟩

/-- Calls of different objects never race, and if functions only read the world, each returns what it returns alone. (Partial: not of the same object.) -/
theorem C85_distinct_partial {g : Glue} (hg : g.Retains) (p : ι → Loc) (o : ι → Obj D W E S) (hd : ∀ i j, i ≠ j → ∀ q, p i <:+ q → ¬ p j <:+ q)
    (s : Sys D W E S ι (Out E (Option (Val D)))) (hs : ∀ i, s.thr i = callR g (p i) (o i)) :
    RaceFree s ∧ ((∀ i, ∀ u ∈ fns (o i), Const u ∧ Pure u) → (∀ i, load s.mem (p i) (o i) = o i) → ∀ i, Returns s i (call0 g (o i) s.env).1) := by
  have hin : ∀ i, (s.thr i).Inside (p i <:+ ·) (p i <:+ ·) (· ∈ fns (o i)) fun _ => True := fun i => hs i ▸ callR_inside g _ _
  have hsep : ∀ i j l, i ≠ j → p j <:+ l → ¬ p i <:+ l ∧ ¬ p i <:+ l := fun i j l hij hj => ⟨fun hi => hd i j hij l hi hj, fun hi => hd i j hij l hi hj⟩
  refine ⟨raceFree_inside (fun i => (hin i).mono (fun _ h => h) (fun _ h => h) (fun _ _ => trivial) fun _ h => h) hsep, fun hp hm i => ?_⟩
  have h := returns_separate (fun i => (hin i).calls fun u hu => (hp i u hu).2)
    (separate_inside (Q := fun _ => True) (fun i => (hin i).mono (fun _ h => h) (fun _ h => h) (fun _ _ => trivial) fun _ h => h) hsep) i
  have hr := (callR_run hg (o i) (p i) s.mem s.env (fun u hu => (hp i u hu).1) (by unfold SameRV; rw [hm i])).1
  rw [hm i] at hr
  rw [hr, ← hs i]
  exact h

/-- Calls that find a value in every cache and depend on no plain function never race, whether of the same object or not; nothing changes and each returns what it returns alone. (Partial: only such calls.) -/
theorem C85_settled_partial {g : Glue} (hg : g.Retains) (p : ι → Loc) (o : ι → Obj D W E S) (s : Sys D W E S ι (Out E (Option (Val D)))) (hs : ∀ i, s.thr i = callR g (p i) (o i))
    (hm : ∀ i, load s.mem (p i) (o i) = o i) (hset : ∀ i, Settled (o i)) :
    RaceFree s ∧ (∀ is, (exec s is).mem = s.mem ∧ (exec s is).env = s.env) ∧ ∀ i, Returns s i (call0 g (o i) s.env).1 := by
  have hi : ∀ i, (s.thr i).Idle s.mem ∧ (call0 g (o i) s.env).1 = ((s.thr i).run s.mem s.env).1 := by
    intro i
    have := callR_settled hg (o i) (p i) s.mem s.env (by rw [hm i]; exact hset i) (by unfold SameRV; rw [hm i])
    rw [hm i, ← hs i] at this
    exact ⟨this.1, by rw [this.2]⟩
  refine ⟨raceFree_idle fun i => (hi i).1, fun is => ?_, fun i => ?_⟩
  · obtain ⟨h1, h2, -, -⟩ := exec_idle is s fun i => (hi i).1
    exact ⟨h1, h2⟩
  · rw [(hi i).2]
    exact returns_idle (fun i => (hi i).1) i

/-- Threads that call the same object, by a call that alone returns normally, are free of races exactly if no function is invoked in that call; and then each returns what it returns alone. -/
theorem C85_same_iff {g : Glue} (hg : g.Retains) (p : Loc) (o : Obj D W E S) (s : Sys D W E S ι (Out E (Option (Val D)))) (hs : ∀ i, s.thr i = callR g p o) {i j : ι} (hij : i ≠ j)
    (hm : load s.mem p o = o) (hf : ∀ u ∈ fns o, Const u ∧ Pure u) (hok : (call0 g o s.env).1.isOk = true) :
    (RaceFree s ↔ (call0 g o s.env).2.2.log = s.env.log) ∧ (RaceFree s → ∀ i, Returns s i (call0 g o s.env).1) := by
  have hr := (callR_run hg o p s.mem s.env (fun u hu => (hf u hu).1) (by unfold SameRV; rw [hm])).1
  rw [hm] at hr
  have hpure : (callR g p o).Calls Pure := (callR_inside g o p).calls fun u hu => (hf u hu).2
  obtain ⟨w1, w2⟩ := callR_work g o p s.mem s.env
  have hlog : (call0 g o s.env).2.2.log = s.env.log ↔ ¬ Writes s.mem s.env (callR g p o) := by
    rw [writes_iff]
    obtain ⟨evs, he⟩ := log_append (callR g p o) s.mem s.env
    rw [hr] at hok ⊢
    constructor
    · intro h hw
      have := w1 hw
      simp only at h
      rw [h] at this
      exact Nat.lt_irrefl _ this
    · intro h
      simp only at hok ⊢
      have : ¬ s.env.log.length < ((callR g p o).run s.mem s.env).2.2.log.length := fun hl => h (w2 hok hl)
      rw [he] at this ⊢
      have : evs = [] := by cases evs with
        | nil => rfl
        | cons e evs => simp at this
      rw [this, List.append_nil]
  have hsep : ¬ Writes s.mem s.env (callR g p o) → Separate s := by
    intro h i j n n' l _ _ hw
    rw [hs j] at hw
    exact h ⟨n', l, hw⟩
  have hrw : RaceFree s → ¬ Writes s.mem s.env (callR g p o) := by
    intro hfree hw
    obtain ⟨is, h⟩ := race_same hpure hij (hs i) (hs j) hw
    exact hfree is h
  refine ⟨?_, fun hfree k => ?_⟩
  · rw [hlog]
    exact ⟨hrw, fun h => raceFree_separate (fun k => hs k ▸ hpure) (hsep h)⟩
  · rw [hr]
    have := returns_separate (fun k => hs k ▸ hpure) (hsep (hrw hfree)) k
    rw [hs k] at this
    exact this

/-- Calls of the same object race, whenever a plain function is among its dependencies, however deep. -/
theorem C85_polls_race {g : Glue} (hg : g.Retains) (p : Loc) (o : Obj D W E S) (s : Sys D W E S ι (Out E (Option (Val D)))) (hs : ∀ i, s.thr i = callR g p o) {i j : ι} (hij : i ≠ j)
    (hm : load s.mem p o = o) (hf : ∀ u ∈ fns o, Const u ∧ Pure u) (hok : (call0 g o s.env).1.isOk = true) (hp : Polls o) : ¬ RaceFree s := by
  have hr := (callR_run hg o p s.mem s.env (fun u hu => (hf u hu).1) (by unfold SameRV; rw [hm])).1
  rw [hm] at hr
  rw [hr] at hok
  have hw := (writes_iff _ _ _).2 (callR_polls g o p s.mem s.env hp hok)
  obtain ⟨is, h⟩ := race_same ((callR_inside g o p).calls fun u hu => (hf u hu).2) hij (hs i) (hs j) hw
  exact fun hfree => hfree is h

/-- First calls of the same object race, whatever its dependencies. -/
theorem C85_first_races {g : Glue} (hg : g.Retains) (p : Loc) (f : Fun D W E S) (c : Cache D) (deps : List (Obj D W E S)) (s : Sys D W E S ι (Out E (Option (Val D))))
    (hs : ∀ i, s.thr i = callR g p (.unregularized (.unwrapped (.core f c deps)))) {i j : ι} (hij : i ≠ j) (hm : load s.mem p (.unregularized (.unwrapped (.core f c deps))) = .unregularized (.unwrapped (.core f c deps)))
    (hf : ∀ u ∈ fns (.unregularized (.unwrapped (.core f c deps))), Const u ∧ Pure u) (hok : (call0 g (.unregularized (.unwrapped (.core f c deps))) s.env).1.isOk = true) (hc : c.engaged = false) :
    ¬ RaceFree s := by
  intro hfree
  have hlog := (C85_same_iff hg p _ s hs hij hm hf hok).1.1 hfree
  -- an invocation in the core
  have hgrow : ∀ r, (evalN g (.core f c deps) s.env).1 = .ok r → s.env.log.length < (evalN g (.core f c deps) s.env).2.2.log.length := by
    intro r hr
    have hdl := log_mono (depsL g deps) s.mem s.env
    rw [depsL_run] at hdl
    rw [evalN] at hr ⊢
    generalize evalDeps g deps s.env = x at hdl hr ⊢
    obtain ⟨o, ds, env1⟩ := x
    simp only at hdl
    rcases o with rs | e | _ | _
    · simp only at hr ⊢
      have htl := tailL_run g f c rs s.mem env1
      rw [← show ((tailL g f c rs).run s.mem env1).1 = (Pigro.coreTail g f c rs env1).1 by rw [htl]] at hr
      rw [← show ((tailL g f c rs).run s.mem env1).2.2 = (Pigro.coreTail g f c rs env1).2.2.2 by rw [htl]]
      simp only [tailL, hc, Bool.not_false, Bool.true_or, if_true] at hr ⊢
      rcases hv : readValues rs with _ | vs
      · rw [hv] at hr; cases hr
      · simp only [run_bind]
        refine Nat.lt_of_lt_of_le ?_ (log_mono _ _ _)
        rw [callFun_log]
        omega
    all_goals cases hr
  have h0 : (call0 g (.unregularized (.unwrapped (.core f c deps))) s.env).2.2 = (evalN g (.core f c deps) s.env).2.2 ∧
      ((call0 g (.unregularized (.unwrapped (.core f c deps))) s.env).1.isOk = true → ∃ r, (evalN g (.core f c deps) s.env).1 = .ok r) := by
    have hu : ∀ i : Obj D W E S, evalN g (.unwrapped i) s.env =
        ((evalN g i s.env).1.map (LazyRes.through (g.resultByRef && g.unwrapParamByValue)), .unwrapped (keep g.unwrapParamByValue i (evalN g i s.env).2.1), (evalN g i s.env).2.2) := fun i => by rw [evalN]
    rw [call0, call0, hu]
    generalize evalN g (.core f c deps) s.env = x
    obtain ⟨o, o', env1⟩ := x
    rcases o with r | e | _ | _
    · exact ⟨rfl, fun _ => ⟨r, rfl⟩⟩
    all_goals exact ⟨rfl, fun h => by cases h⟩
  obtain ⟨r, hr⟩ := h0.2 hok
  have := hgrow r hr
  rw [← h0.1, hlog] at this
  exact Nat.lt_irrefl _ this

/-- Threads whose calls do not overlap (for instance because each holds a lock while it calls): the calls return what they do in a program that makes them one after the other, and leave the variables as that
program does. -/
theorem C85_locked {g : Glue} (hg : g.Retains) (vars : List (Obj D W E S)) (v : ι → Nat) (s : Sys D W E S ι (Out E (Option (Val D)))) (order : List ι) (hn : order.Nodup)
    (hm : ∀ r o, vars[r]? = some o → load s.mem [r] o = o) (hc : ∀ o ∈ vars, ∀ u ∈ fns o, Const u) (hs : ∀ i ∈ order, ∃ o, vars[v i]? = some o ∧ s.thr i = callR g [v i] o) :
    ∃ N, ∀ n, N ≤ n → ∃ a : ι → Out E (Option (Val D)), (run g ⟨vars, s.env⟩ (order.map fun i => .call (v i))).1 = order.map (fun i => .ret (a i)) ∧
      (∀ i ∈ order, (exec s (order.flatMap (List.replicate n))).thr i = .ret (a i)) ∧
      (∀ r o, (run g ⟨vars, s.env⟩ (order.map fun i => .call (v i))).2.vars[r]? = some o → load (exec s (order.flatMap (List.replicate n))).mem [r] o = o) ∧
      (exec s (order.flatMap (List.replicate n))).env = (run g ⟨vars, s.env⟩ (order.map fun i => .call (v i))).2.env := by
  obtain ⟨N, hN⟩ := serial hg v order s vars hn hm hc hs
  refine ⟨N, fun n h => ?_⟩
  obtain ⟨a, h1, h2, -, h4, h5⟩ := hN n h
  exact ⟨a, h1, h2, h4, h5⟩

namespace Demo
/-- Numbers. -/
local instance : CxxData Nat := ⟨fun a b => a != b, 0⟩

/-- A plain function that reads the world. -/
def reader : UFn Nat Nat Unit Unit := ⟨⟨0, .val, fun st _ w => (.ok (.data w), st, w)⟩, ()⟩

/-- `[](auto x) { return x; }` -/
def same : UFn Nat Nat Unit Unit := ⟨⟨1, .val, fun st args w => (.ok (args.headD .rvoid), st, w)⟩, ()⟩

/-- `lazy(same, reader)` after a call that returned 1. -/
def polling : Obj Nat Nat Unit Unit :=
  .unregularized (.unwrapped (.core (.regularized same) (.opt (some (.data 1))) [.core (.wrapDep reader) (.opt (some (.data 1))) [.lazyValue (.data 0) true]]))

/-- `lazy(same, 1)` after a call that returned 1. -/
def constant : Obj Nat Nat Unit Unit := .unregularized (.unwrapped (.core (.regularized same) (.opt (some (.data 1))) [.lazyValue (.data 1) false]))

/-- Every cache contains 1. -/
def ones : Mem Nat := fun _ => .opt (some (.data 1))

/-- Two threads that call an object, in a world that is 2. -/
def two (P : Prog Nat Nat Unit Unit (Out Unit (Option (Val Nat)))) : Sys Nat Nat Unit Unit Bool (Out Unit (Option (Val Nat))) := ⟨ones, ⟨2, []⟩, fun _ => P⟩

/-- The number that a thread has returned. -/
def returned : Prog Nat Nat Unit Unit (Out Unit (Option (Val Nat))) → Option Nat
  | .ret (.ok (some (.data n))) => some n
  | _ => none

/-- The witness of `C85_stale`: the world is 2, and was so when the first of the two calls began. Alone, a call returns 2. Now one thread evaluates the plain function (and notes its value), then the other one makes its
call and returns 1, since for it nothing has changed. All accesses are made one at a time. -/
theorem _root_.Pigro.Thr.C85_stale :
    returned ((exec (two (callR Glue.retained [0] polling)) (List.replicate 7 true ++ List.replicate 9 false)).thr false) = some 1 ∧
      (∀ is, (exec (two (callR Glue.retained [0] polling)) is).env.w = 2) ∧ (call0 Glue.retained polling ⟨2, []⟩).1.map (fun v => returned (.ret (.ok v))) = .ok (some 2) := by
  refine ⟨by rfl, ?_, by rfl⟩
  have hp : ∀ is (s : Sys Nat Nat Unit Unit Bool (Out Unit (Option (Val Nat)))), (∀ i, (s.thr i).Calls Pure) → (exec s is).env.w = s.env.w := by
    intro is
    induction is with
    | nil => exact fun _ _ => rfl
    | cons i is ih =>
      intro s h
      refine (ih (tick s i) (inside_exec (R := fun _ _ => True) (Wr := fun _ _ => True) [i] s h)).trans ?_
      exact advance_world (h i)
  intro is
  refine hp is _ fun i => (callR_inside _ _ _).calls fun u hu => ?_
  simp [polling, fns, fnOf] at hu
  rcases hu with rfl | rfl <;> exact fun _ _ => rfl

/-- `C85_polls_race` and `C85_same_iff` apply to this object. -/
example : ¬ RaceFree (two (callR Glue.retained [0] polling)) := by
  refine C85_polls_race ⟨rfl, rfl, rfl, rfl⟩ [0] polling _ (fun _ => rfl) (i := true) (j := false) (by decide) rfl ?_ rfl ?_
  · intro u hu
    simp [polling, fns, fnOf] at hu
    rcases hu with rfl | rfl <;> exact ⟨fun _ _ => rfl, fun _ _ => rfl⟩
  · simp [polling, Polls]

/-- `C85_settled_partial` applies to an object without plain functions, called by two threads at once. -/
example : RaceFree (two (callR Glue.retained [0] constant)) ∧ ∀ i, Returns (two (callR Glue.retained [0] constant)) i (.ok (some (.data 1))) := by
  have h := C85_settled_partial (ι := Bool) (g := Glue.retained) ⟨rfl, rfl, rfl, rfl⟩ (fun _ => [0]) (fun _ => constant) (two (callR Glue.retained [0] constant)) (fun _ => rfl) (fun _ => rfl)
    (fun _ => by simp [constant, Settled, Cache.engaged])
  exact ⟨h.1, h.2.2⟩

/-- `C85_distinct_partial` applies to two variables. -/
example : RaceFree (⟨ones, ⟨2, []⟩, fun i => callR Glue.retained [cond i 1 0] polling⟩ : Sys Nat Nat Unit Unit Bool _) ∧
    ∀ i, Returns (⟨ones, ⟨2, []⟩, fun i => callR Glue.retained [cond i 1 0] polling⟩ : Sys Nat Nat Unit Unit Bool _) i (.ok (some (.data 2))) := by
  have h := C85_distinct_partial (ι := Bool) (g := Glue.retained) ⟨rfl, rfl, rfl, rfl⟩ (fun i => [cond i 1 0]) (fun _ => polling)
    (fun i j hij q hi hj => hij (by have := suffix_index (p := []) hi hj; cases i <;> cases j <;> first | rfl | cases this))
    (⟨ones, ⟨2, []⟩, fun i => callR Glue.retained [cond i 1 0] polling⟩) (fun _ => rfl)
  refine ⟨h.1, h.2 ?_ fun i => by cases i <;> rfl⟩
  intro i u hu
  simp [polling, fns, fnOf] at hu
  rcases hu with rfl | rfl <;> exact ⟨fun _ _ => rfl, fun _ _ => rfl⟩

/-- `C85_as_written` applies to the pinned code, whose call is undefined (the result dangles). -/
example : RaceFree (two (callV Glue.asWritten [0] polling)) ∧ ∀ i, Returns (two (callV Glue.asWritten [0] polling)) i .ub := by
  have h := C85_as_written (ι := Bool) (g := Glue.asWritten) rfl (fun _ => [0])
    (fun _ => .unwrapped (.core (.regularized same) (.opt (some (.data 1))) [.core (.wrapDep reader) (.opt (some (.data 1))) [.lazyValue (.data 0) true]]))
    (two (callV Glue.asWritten [0] polling)) (fun _ => rfl)
  refine ⟨h.1, h.2.2 ?_ fun _ => rfl⟩
  intro _ u hu
  simp [fns, fnOf] at hu
  rcases hu with rfl | rfl <;> exact fun _ _ => rfl

/-- `C85_first_races` applies to a new object. -/
example : ¬ RaceFree (⟨fun _ => .opt none, ⟨2, []⟩, fun _ => callR Glue.retained [0] (.unregularized (.unwrapped (.core (.regularized same) (.opt none) [.lazyValue (.data 1) false])))⟩ :
    Sys Nat Nat Unit Unit Bool _) := by
  refine C85_first_races ⟨rfl, rfl, rfl, rfl⟩ [0] (.regularized same) (.opt none) [.lazyValue (.data 1) false] _ (fun _ => rfl) (i := true) (j := false) (by decide) rfl ?_ rfl rfl
  intro u hu
  simp [fns, fnOf] at hu
  rcases hu with rfl
  exact ⟨fun _ _ => rfl, fun _ _ => rfl⟩

/-- `C85_locked` applies to two threads that call the same variable. -/
example : ∃ N, ∀ n, N ≤ n → ∃ a : Bool → Out Unit (Option (Val Nat)),
    (∀ i ∈ [true, false], (exec (two (callR Glue.retained [0] polling)) ([true, false].flatMap (List.replicate n))).thr i = .ret (a i)) ∧
      (run Glue.retained ⟨[polling], ⟨2, []⟩⟩ [.call 0, .call 0]).1 = [.ret (a true), .ret (a false)] := by
  have h := C85_locked (ι := Bool) (g := Glue.retained) ⟨rfl, rfl, rfl, rfl⟩ [polling] (fun _ => 0) (two (callR Glue.retained [0] polling)) [true, false] (by decide)
    (fun r o hr => by
      match r, hr with
      | 0, hr => injection hr with hr; subst hr; rfl
      | r + 1, hr => simp at hr)
    (fun o ho u hu => by
      rw [List.mem_singleton.1 ho] at hu
      simp [polling, fns, fnOf] at hu
      rcases hu with rfl | rfl <;> exact fun _ _ => rfl)
    (fun i _ => ⟨polling, rfl, rfl⟩)
  obtain ⟨N, hN⟩ := h
  refine ⟨N, fun n hn => ?_⟩
  obtain ⟨a, h1, h2, -⟩ := hN n hn
  exact ⟨a, h2, h1⟩

end Demo

end Pigro.Thr
