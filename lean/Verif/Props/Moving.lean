import Verif.Proofs.MovingMem
import Verif.Props.LazyMem
/-!
# C78: lazy functions can be moved, returned and outlive what they were made from

`auto y = std::move(x);`, `lazy(f, std::move(x))`, `return x;`: only the name changes. A lazy function does not need the variables it was made from (they were copied
or moved into it, lazy.h:96, :46, :50), so they may go out of scope.
-/
namespace Pigro
open Demo
variable {D W E S : Type} [CxxData D]

/-- **C78.** A program that moves lazy functions, passes them on by `std::move` and lets them go out of scope does what the program does in which they all stay where
they are (`unmoved`): the same results, flags and exceptions, the same world, the same invocations and comparisons; for all variants of the code, whatever the user's
functions do and whatever moves leave behind. Condition: variables are not used after they have been moved from or destroyed. -/
theorem C78_moves (g : Glue) (μ : Moved D S) (w : W) (ops : List (MvOp D W E S)) (ops' : List (Op D W E S)) (h : unmoved [] 0 ops = some ops') :
    let a := mvRun g μ (MvState.init w) ops
    let b := run g (State.init w) ops'
    a.1 = withMoves .unit ops b.1 ∧ a.2.env = b.2.env :=
  mv_sim g μ ops [] ops' _ _ (mv_init w) h

/-- **C78**, for the pinned code (`byRef = true`) and the code without the deduction guide lazy.h:23-24 (`byRef = false`) at memory level: lazy functions are objects with
addresses and lifetimes, a move is an initialisation from an xvalue and leaves behind anything (`moved`), going out of scope ends a lifetime. -/
theorem LM.C78_memory (Θ : LM.Empties D W E S) (moved : LM.MV D W E S → LM.MV D W E S) (byRef : Bool) (w : W) (ops : List (MvOp D W E S)) (ops' : List (Op D W E S))
    (h : unmoved [] 0 ops = some ops') :
    let a := LM.mvRunM (LM.lang Θ moved) byRef (LM.MState.init w) ops
    let b := run { Glue.asWritten with resultByRef := byRef } (State.init w) ops'
    a.1 = withMoves .unit ops (b.1.map LM.seen) ∧ a.2.mem.world = b.2.env :=
  LM.mv_simM Θ moved byRef ops [] ops' _ _ (LM.mv_initM w) h

/-- A variable that has been destroyed remains so, and any use of it is undefined behaviour, at both levels. -/
theorem C78_destroyed (g : Glue) (μ : Moved D S) (s : MvState D W E S) (i : Nat) (o : Obj D W E S) (h : s.vars[i]? = some (some o)) (use : MvOp D W E S)
    (hu : use = .call i ∨ use = .poll i ∨ use = .copy i ∨ use = .move i ∨ use = .destroy i ∨ ∃ f ds, use = .mk f (.arg (.var i) :: ds) ∨ use = .mk f (.move i :: ds)) :
    let s' := (mvStep g μ s (.destroy i)).2
    mvStep g μ s' use = (.ret .ub, s') := by
  have hi := (List.getElem?_eq_some_iff.1 h).1
  have hs : (mvStep g μ s (.destroy i)).2 = ⟨s.vars.set i none, s.env⟩ := by simp only [mvStep, h]
  simp only [hs]
  rcases hu with rfl | rfl | rfl | rfl | rfl | ⟨f, ds, rfl | rfl⟩ <;> simp [mvStep, mvResolve, hi, absent]

theorem LM.C78_destroyed (Λ : LM.LLang D W E S) (byRef : Bool) (s : LM.MState D W E S) (i a : Nat) (h : s.addr? i = some a) (use : MvOp D W E S)
    (hu : use = .call i ∨ use = .poll i ∨ use = .copy i ∨ use = .move i ∨ use = .destroy i ∨ ∃ f ds, use = .mk f (.arg (.var i) :: ds) ∨ use = .mk f (.move i :: ds)) :
    let s' := (LM.mvStepM Λ byRef s (.destroy i)).2
    LM.mvStepM Λ byRef s' use = (.ret .ub, s') := by
  have hv : s.vars[i]? = some a := by
    simp only [LM.MState.addr?] at h
    split at h
    · split at h
      · rename_i hv _; rw [hv, h]
      · cases h
    · cases h
  have hi := (List.getElem?_eq_some_iff.1 hv).1
  have hd : ({ s with mem := s.mem.kill a } : LM.MState D W E S).addr? i = none := by simp [LM.MState.addr?, hv, Cxx.Mem.kill]
  rcases hu with rfl | rfl | rfl | rfl | rfl | ⟨f, ds, rfl | rfl⟩ <;> simp [LM.mvStepM, LM.mvPlace, h, hd, hi, LM.absentM]

omit [CxxData D] in
theorem mvResolve_absent (μ : Moved D S) (i : Nat) (x : MvArg D W E S) (es : List (MvArg D W E S)) (hx : i ∈ x.names) :
    ∀ (ds : List (MvArg D W E S)) (vars : List (Option (Obj D W E S))), (∀ o, vars[i]? ≠ some (some o)) → (∀ d ∈ ds, ∀ j ∈ d.names, ∃ o, vars[j]? = some (some o)) →
      mvResolve μ vars (ds ++ x :: es) = .error i
  | [], vars, h, _ => by
    match x, hx with
    | .arg (.var k), hx =>
      obtain rfl : i = k := by simpa [MvArg.names] using hx
      rw [List.nil_append, mvResolve]
      rcases hv : vars[i]? with _ | _ | o
      · rfl
      · rfl
      · exact absurd hv (h o)
    | .move k, hx =>
      obtain rfl : i = k := by simpa [MvArg.names] using hx
      rw [List.nil_append, mvResolve]
      rcases hv : vars[i]? with _ | _ | o
      · rfl
      · rfl
      · exact absurd hv (h o)
  | d :: ds, vars, h, hd => by
    have hds : ∀ d ∈ ds, ∀ j ∈ d.names, ∃ o, vars[j]? = some (some o) := fun d h => hd d (List.mem_cons_of_mem _ h)
    match d, hd d List.mem_cons_self with
    | .arg (.value v), _ => simp only [List.cons_append, mvResolve, mvResolve_absent μ i x es hx ds vars h hds]
    | .arg (.function u), _ => simp only [List.cons_append, mvResolve, mvResolve_absent μ i x es hx ds vars h hds]
    | .arg (.var j), hj =>
      obtain ⟨o, ho⟩ := hj j (by simp [MvArg.names])
      simp only [List.cons_append, mvResolve, ho, mvResolve_absent μ i x es hx ds vars h hds]
    | .move j, hj =>
      obtain ⟨o, ho⟩ := hj j (by simp [MvArg.names])
      have hij : j ≠ i := by rintro rfl; exact h o ho
      have hj' := (List.getElem?_eq_some_iff.1 ho).1
      simp only [List.cons_append, mvResolve, ho]
      rw [mvResolve_absent μ i x es hx ds (vars.set j (some (o.movedFrom μ))) (by rw [List.getElem?_set_ne hij]; exact h) (by
        intro d hd' k hk
        obtain ⟨o', ho'⟩ := hds d hd' k hk
        by_cases hjk : j = k
        · subst hjk; exact ⟨_, List.getElem?_set_self hj'⟩
        · exact ⟨o', by rw [List.getElem?_set_ne hjk]; exact ho'⟩)]

/-- Any use of a variable that does not exist: it has been destroyed, which is undefined behaviour, or has never been declared, which does not compile. As a dependency, too, in whatever place. -/
theorem C78_absent (g : Glue) (μ : Moved D S) (s : MvState D W E S) (i : Nat) (h : ∀ o, s.vars[i]? ≠ some (some o)) (use : MvOp D W E S)
    (hu : use = .call i ∨ use = .poll i ∨ use = .copy i ∨ use = .move i ∨ use = .destroy i ∨
      ∃ f ds a es, use = .mk f (ds ++ a :: es) ∧ i ∈ a.names ∧ ∀ d ∈ ds, ∀ j ∈ d.names, ∃ o, s.vars[j]? = some (some o)) :
    mvStep g μ s use = (if i < s.vars.length then .ret .ub else .invalid, s) := by
  have hs : s.vars[i]? = none ∨ s.vars[i]? = some none := by
    rcases hv : s.vars[i]? with _ | _ | o
    · exact .inl rfl
    · exact .inr rfl
    · exact absurd hv (h o)
  rcases hu with rfl | rfl | rfl | rfl | rfl | ⟨f, ds, a, es, rfl, ha, hd⟩
  case inr.inr.inr.inr.inr => rw [mvStep, mvResolve_absent μ i a es ha ds s.vars h hd]; rfl
  all_goals rcases hs with hs | hs <;> simp only [mvStep, hs, absent]

/-- A dependency that has been destroyed, after another that is moved. -/
example (g : Glue) (o : Obj Int Int Nat Nat) : let s : MvState Int Int Nat Nat := ⟨[some o, none], ⟨5, []⟩⟩
    mvStep g ⟨id, id⟩ s (.mk sum [.move 0, .arg (.var 1)]) = (.ret .ub, s) :=
  C78_absent g _ _ 1 (by simp) _ (.inr (.inr (.inr (.inr (.inr ⟨sum, [.move 0], .arg (.var 1), [], rfl, by simp [MvArg.names], by simp [MvArg.names]⟩)))))

omit [CxxData D] in
theorem LM.mvPlace_absent (Λ : LM.LLang D W E S) (s : LM.MState D W E S) (i : Nat) (h : s.addr? i = none) (x : MvArg D W E S) (es : List (MvArg D W E S)) (hx : i ∈ x.names) :
    ∀ (ds : List (MvArg D W E S)) (m : LM.LMem D W E S), (∀ d ∈ ds, ∀ j ∈ d.names, ∃ a, s.addr? j = some a) → LM.mvPlace Λ s (ds ++ x :: es) m = .error i
  | [], m, _ => by
    match x, hx with
    | .arg (.var k), hx =>
      obtain rfl : i = k := by simpa [MvArg.names] using hx
      rw [List.nil_append, LM.mvPlace]; simp only [h]
    | .move k, hx =>
      obtain rfl : i = k := by simpa [MvArg.names] using hx
      rw [List.nil_append, LM.mvPlace]; simp only [h]
  | d :: ds, m, hd => by
    have hds : ∀ d ∈ ds, ∀ j ∈ d.names, ∃ a, s.addr? j = some a := fun d h => hd d (List.mem_cons_of_mem _ h)
    match d, hd d List.mem_cons_self with
    | .arg (.value v), _ => simp only [List.cons_append, LM.mvPlace, LM.mvPlace_absent Λ s i h x es hx ds _ hds]
    | .arg (.function u), _ => simp only [List.cons_append, LM.mvPlace, LM.mvPlace_absent Λ s i h x es hx ds _ hds]
    | .arg (.var j), hj =>
      obtain ⟨o, ho⟩ := hj j (by simp [MvArg.names])
      simp only [List.cons_append, LM.mvPlace, ho, LM.mvPlace_absent Λ s i h x es hx ds _ hds]
    | .move j, hj =>
      obtain ⟨o, ho⟩ := hj j (by simp [MvArg.names])
      simp only [List.cons_append, LM.mvPlace, ho, LM.mvPlace_absent Λ s i h x es hx ds _ hds]

/-- ... and at memory level. -/
theorem LM.C78_absent (Λ : LM.LLang D W E S) (byRef : Bool) (s : LM.MState D W E S) (i : Nat) (h : s.addr? i = none) (use : MvOp D W E S)
    (hu : use = .call i ∨ use = .poll i ∨ use = .copy i ∨ use = .move i ∨ use = .destroy i ∨
      ∃ f ds a es, use = .mk f (ds ++ a :: es) ∧ i ∈ a.names ∧ ∀ d ∈ ds, ∀ j ∈ d.names, ∃ a, s.addr? j = some a) :
    LM.mvStepM Λ byRef s use = (if i < s.vars.length then .ret .ub else .invalid, s) := by
  rcases hu with rfl | rfl | rfl | rfl | rfl | ⟨f, ds, a, es, rfl, ha, hd⟩
  case inr.inr.inr.inr.inr => rw [LM.mvStepM, LM.mvPlace_absent Λ s i h a es ha ds _ hd]; rfl
  all_goals simp only [LM.mvStepM, h, LM.absentM]

/-- What moves leave behind: zeros. -/
def Demo.zeroed : Moved Int Nat := ⟨fun _ => 0, fun _ => 0⟩

/-- The condition is needed: a lazy function that has been moved from returns what the move left of its cached value (3 + 4), or calls its function with what the move
left of the values it depends on (3 + 5 / 2, the cached result of `half` being gone too), although nothing has changed. -/
theorem C78_moved_from_stale : (mvRun .retained ⟨fun _ => 9, fun _ => 0⟩ (MvState.init 5)
      [.mk sum [.arg (.value (.data 3)), .arg (.value (.data 4))], .call 0, .move 0, .call 1, .call 0,
        .mk sum [.arg (.value (.data 3)), .arg (.function half)], .call 2, .move 2, .call 3, .call 2] : List (Obs Int Nat) × MvState Int Int Nat Nat).1 =
    [.unit, .ret (.ok (some (.data 7))), .unit, .ret (.ok (some (.data 7))), .ret (.ok (some (.data 9))),
      .unit, .ret (.ok (some (.data 5))), .unit, .ret (.ok (some (.data 5))), .ret (.ok (some (.data 11)))] := by rfl

/-- `auto make() { auto x = lazy(rd); auto y = lazy(halfArg, x); auto z = lazy(sum, std::move(y), x, 7); z(); return z; }`, then `auto v = make(); v(); ... auto u = v; ...` -/
def Demo.makeAndUse : List (MvOp Int Int Nat Nat) :=
  [.mk rd [], .mk halfArg [.arg (.var 0)], .mk sum [.move 1, .arg (.var 0), .arg (.value (.data 7))], .call 2, .move 2, .destroy 2, .destroy 1, .destroy 0,
    .call 3, .poke (· + 4), .copy 3, .call 4, .destroy 3, .poll 4]

/-- The program without moves. -/
example : (unmoved [] 0 makeAndUse).map (fun ops => ops.map fun op => match op with
    | .mk f deps => (f.id, deps.map fun d => match d with | .value _ => 100 | .function _ => 200 | .var i => i)
    | .copy i => (50, [i])
    | .call i => (60, [i])
    | .poll i => (70, [i])
    | .poke _ => (80, [])) =
  some [(1, []), (4, [0]), (3, [1, 0, 100]), (60, [2]), (60, [2]), (80, []), (50, [2]), (60, [3]), (70, [3])] := by rfl

/-- `C78_moves` for it. -/
example : ∃ ops', unmoved [] 0 makeAndUse = some ops' ∧ ∀ (g : Glue) (w : Int),
    (mvRun g zeroed (MvState.init w) makeAndUse).1 = withMoves .unit makeAndUse (run g (State.init w) ops').1 :=
  ⟨_, rfl, fun g w => (C78_moves g zeroed w makeAndUse _ rfl).1⟩

example : (mvRun .retained zeroed (MvState.init 5) makeAndUse : List (Obs Int Nat) × MvState Int Int Nat Nat).1 =
    [.unit, .unit, .unit, .ret (.ok (some (.data 14))), .unit, .unit, .unit, .unit, .ret (.ok (some (.data 14))), .unit, .unit, .ret (.ok (some (.data 14))),
      .unit, .polled (.ok ⟨.data 14, false, true⟩)] := by rfl

/-- `LM.C78_memory` for it: pinned code, and without the guide. -/
example : ∃ ops', unmoved [] 0 makeAndUse = some ops' ∧ (LM.mvRunM (LM.lang LM.empties (fun _ => .unit)) true (LM.MState.init 5) makeAndUse).1 =
    withMoves .unit makeAndUse ((run Glue.asWritten (State.init 5) ops').1.map LM.seen) :=
  ⟨_, rfl, (LM.C78_memory LM.empties (fun _ => .unit) true 5 makeAndUse _ rfl).1⟩

example : (LM.mvRunM (LM.lang LM.empties (fun _ => .unit)) false (LM.MState.init 5) makeAndUse : List (LM.Seen Int Nat) × LM.MState Int Int Nat Nat).1 =
    [.unit, .unit, .unit, .ret (.ok (some (.data 14))), .unit, .unit, .unit, .unit, .ret (.ok (some (.data 14))), .unit, .unit, .ret (.ok (some (.data 20))),
      .unit, .polled (.ok (some (.data 20), true))] :=
  (LM.C78_memory LM.empties (fun _ => .unit) false 5 makeAndUse _ rfl).1.trans rfl

/-- `C78_destroyed`. -/
example : (mvRun .retained zeroed (MvState.init 5) [.mk rd [], .mk halfArg [.arg (.var 0)], .destroy 0, .call 1, .call 0, .mk sum [.arg (.var 1), .move 0]] :
    List (Obs Int Nat) × MvState Int Int Nat Nat).1 = [.unit, .unit, .unit, .ret (.ok (some (.data 2))), .ret .ub, .ret .ub] := by rfl

example (s : LM.MState Int Int Nat Nat) (h : s.addr? 3 = some 17) :
    (LM.mvStepM (LM.lang LM.empties fun _ => .unit) true (LM.mvStepM (LM.lang LM.empties fun _ => .unit) true s (.destroy 3)).2 (.call 3)).1 = .ret .ub := by
  rw [LM.C78_destroyed _ true s 3 17 h _ (.inl rfl)]

/-- Uses that are ruled out: of a variable that was moved from or destroyed, moving from a variable that is also mentioned elsewhere in the call, destroying twice. -/
example : (unmoved [] 0 [.mk rd [], .move 0, .call 0] : Option (List (Op Int Int Nat Nat))).isNone ∧
    (unmoved [] 0 [.mk rd [], .destroy 0, .copy 0] : Option (List (Op Int Int Nat Nat))).isNone ∧
    (unmoved [] 0 [.mk rd [], .mk sum [.arg (.var 0), .move 0]] : Option (List (Op Int Int Nat Nat))).isNone ∧
    (unmoved [] 0 [.mk rd [], .destroy 0, .destroy 0] : Option (List (Op Int Int Nat Nat))).isNone := ⟨rfl, rfl, rfl, rfl⟩

end Pigro
