import Verif.Props.Moving
/-!
# C78: where a move leaves behind what was there, it is a copy

Numbers, pointers, references: types for which moving is copying. Then moved-from lazy functions may be used like any others.
-/
namespace Pigro
open Demo
variable {D W E S : Type}

/-- A dependency, copied instead of moved. -/
def MvArg.copied : MvArg D W E S → ArgRef D W E S
  | .arg a => a
  | .move i => .var i

/-- An operation, with copies instead of moves. Nothing goes out of scope. -/
def MvOp.copied : MvOp D W E S → Option (Op D W E S)
  | .mk f deps => some (.mk f (deps.map MvArg.copied))
  | .copy i => some (.copy i)
  | .move i => some (.copy i)
  | .destroy _ => none
  | .call i => some (.call i)
  | .poll i => some (.poll i)
  | .poke h => some (.poke h)

/-- Moves change nothing. -/
def Moved.nothing : Moved D S := ⟨fun d => d, fun s => s⟩

mutual
theorem Val.movedFrom_nothing : ∀ v : Val D, v.movedFrom (.nothing : Moved D S) = v
  | .data _ => rfl
  | .rvoid => rfl
  | .tup vs => by rw [Val.movedFrom, Val.movedFromL_nothing vs]
theorem Val.movedFromL_nothing : ∀ vs : List (Val D), Val.movedFromL (.nothing : Moved D S) vs = vs
  | [] => rfl
  | v :: vs => by rw [Val.movedFromL, Val.movedFrom_nothing v, Val.movedFromL_nothing vs]
end

theorem Cache.movedFrom_nothing (c : Cache D) : c.movedFrom (.nothing : Moved D S) = c := by
  rcases c with (_ | v) | b
  · rfl
  · simp [Cache.movedFrom, Val.movedFrom_nothing]
  · rfl

theorem Fun.movedFrom_nothing (f : Fun D W E S) : f.movedFrom .nothing = f := by cases f <;> rfl

mutual
theorem Obj.movedFrom_nothing : ∀ o : Obj D W E S, o.movedFrom .nothing = o
  | .lazyValue v c => by rw [Obj.movedFrom, Val.movedFrom_nothing]
  | .core f c ds => by rw [Obj.movedFrom, Fun.movedFrom_nothing, Cache.movedFrom_nothing, Obj.movedFromL_nothing ds]
  | .unwrapped o => by rw [Obj.movedFrom, Obj.movedFrom_nothing o]
  | .unregularized o => by rw [Obj.movedFrom, Obj.movedFrom_nothing o]
theorem Obj.movedFromL_nothing : ∀ os : List (Obj D W E S), Obj.movedFromL .nothing os = os
  | [] => rfl
  | o :: os => by rw [Obj.movedFromL, Obj.movedFrom_nothing o, Obj.movedFromL_nothing os]
end

theorem map_some_get (vars : List (Obj D W E S)) (i : Nat) : (vars.map some)[i]? = vars[i]?.map some := by simp

theorem set_self (vars : List (Obj D W E S)) (i : Nat) (o : Obj D W E S) (h : vars[i]? = some o) : (vars.map some).set i (some o) = vars.map some := by
  rw [← List.map_set]
  congr 1
  obtain ⟨hi, h⟩ := List.getElem?_eq_some_iff.1 h
  rw [← h, List.set_getElem_self]

theorem mvResolve_nothing (vars : List (Obj D W E S)) : ∀ deps : List (MvArg D W E S),
    (∃ ds, mvResolve .nothing (vars.map some) deps = .ok (ds, vars.map some) ∧ resolveAll vars (deps.map MvArg.copied) = some ds) ∨
    (∃ i, mvResolve .nothing (vars.map some) deps = .error i ∧ vars.length ≤ i ∧ resolveAll vars (deps.map MvArg.copied) = none)
  | [] => .inl ⟨[], rfl, rfl⟩
  | a :: as => by
    have ih := mvResolve_nothing vars as
    have fin : ∀ d, a.copied.resolve vars = some d →
        mvResolve .nothing (vars.map some) (a :: as) = (match mvResolve .nothing (vars.map some) as with
          | .error i => .error i
          | .ok (ds, vars2) => .ok (d :: ds, vars2)) →
        (∃ ds, mvResolve .nothing (vars.map some) (a :: as) = .ok (ds, vars.map some) ∧ resolveAll vars ((a :: as).map MvArg.copied) = some ds) ∨
        (∃ i, mvResolve .nothing (vars.map some) (a :: as) = .error i ∧ vars.length ≤ i ∧ resolveAll vars ((a :: as).map MvArg.copied) = none) := by
      intro d h1 h2
      rcases ih with ⟨ds, h3, h4⟩ | ⟨i, h3, h4, h5⟩
      · exact .inl ⟨d :: ds, by rw [h2, h3], by rw [List.map_cons, resolveAll, h1, h4]⟩
      · exact .inr ⟨i, by rw [h2, h3], h4, by rw [List.map_cons, resolveAll, h1, h5]⟩
    have bad : ∀ i, vars[i]? = none → mvResolve .nothing (vars.map some) (a :: as) = .error i → a.copied = .var i →
        (∃ ds, mvResolve .nothing (vars.map some) (a :: as) = .ok (ds, vars.map some) ∧ resolveAll vars ((a :: as).map MvArg.copied) = some ds) ∨
        (∃ i, mvResolve .nothing (vars.map some) (a :: as) = .error i ∧ vars.length ≤ i ∧ resolveAll vars ((a :: as).map MvArg.copied) = none) := by
      intro i h1 h2 h3
      refine .inr ⟨i, h2, List.getElem?_eq_none_iff.1 h1, ?_⟩
      rw [List.map_cons, resolveAll, h3, ArgRef.resolve, h1]
      rfl
    rcases a with (v | u | i) | i
    · exact fin _ rfl rfl
    · exact fin _ rfl rfl
    · rcases h : vars[i]? with _ | o
      · exact bad i h (by simp [mvResolve, h]) rfl
      · exact fin (.lazyObj o) (by simp [MvArg.copied, ArgRef.resolve, h]) (by simp only [mvResolve, map_some_get, h, Option.map_some]; rfl)
    · rcases h : vars[i]? with _ | o
      · exact bad i h (by simp [mvResolve, h]) rfl
      · exact fin (.lazyObj o) (by simp [MvArg.copied, ArgRef.resolve, h])
          (by simp only [mvResolve, map_some_get, h, Option.map_some, Obj.movedFrom_nothing, set_self vars i o h]; rfl)

variable [CxxData D]

theorem mvStep_nothing (g : Glue) (s : State D W E S) (op : MvOp D W E S) (op' : Op D W E S) (h : op.copied = some op') :
    mvStep g .nothing ⟨s.vars.map some, s.env⟩ op = ((step g s op').1, ⟨(step g s op').2.vars.map some, (step g s op').2.env⟩) := by
  have gone : ∀ i, s.vars[i]? = none → (absent (s.vars.map some).length i : Obs D E) = .invalid := by
    intro i hi
    rw [absent, if_neg (by rw [List.length_map]; exact Nat.not_lt.2 (List.getElem?_eq_none_iff.1 hi))]
  cases op with
  | mk f deps =>
    obtain rfl := Option.some.inj h
    rcases mvResolve_nothing s.vars deps with ⟨ds, h1, h2⟩ | ⟨i, h1, h2, h3⟩
    · simp only [mvStep, step, h1, h2, Option.bind_some]
      rcases pigroLazy f ds with _ | o <;> simp
    · simp only [mvStep, step, h1, h3, Option.bind_none, gone i (List.getElem?_eq_none_iff.2 h2)]
  | copy i =>
    obtain rfl := Option.some.inj h
    rcases hi : s.vars[i]? with _ | o
    · simp only [mvStep, step, map_some_get, hi, Option.map_none, gone i hi]
    · simp [mvStep, step, hi]
  | move i =>
    obtain rfl := Option.some.inj h
    rcases hi : s.vars[i]? with _ | o
    · simp only [mvStep, step, map_some_get, hi, Option.map_none, gone i hi]
    · simp only [mvStep, step, map_some_get, hi, Option.map_some, Obj.movedFrom_nothing, set_self s.vars i o hi, List.map_append, List.map_cons, List.map_nil]
  | destroy i => cases h
  | call i =>
    obtain rfl := Option.some.inj h
    rcases hi : s.vars[i]? with _ | o
    · simp only [mvStep, step, map_some_get, hi, Option.map_none, gone i hi]
    · simp [mvStep, step, hi, List.map_set]
  | poll i =>
    obtain rfl := Option.some.inj h
    rcases hi : s.vars[i]? with _ | o
    · simp only [mvStep, step, map_some_get, hi, Option.map_none, gone i hi]
    · simp [mvStep, step, hi, List.map_set]
  | poke k =>
    obtain rfl := Option.some.inj h
    rfl

/-- **C78**, for types whose moves are copies: a program that moves lazy functions, and uses them afterwards as before, does what the program does that copies them. In particular, naming a
variable that was never declared does not compile in either. -/
theorem C78_moves_that_copy (g : Glue) (w : W) (ops : List (MvOp D W E S)) (ops' : List (Op D W E S)) (h : ops.map MvOp.copied = ops'.map some) :
    (mvRun g .nothing (MvState.init w) ops).1 = (run g (State.init w) ops').1 ∧ (mvRun g .nothing (MvState.init w) ops).2.env = (run g (State.init w) ops').2.env := by
  have key : ∀ (ops : List (MvOp D W E S)) (ops' : List (Op D W E S)) (s : State D W E S), ops.map MvOp.copied = ops'.map some →
      (mvRun g .nothing ⟨s.vars.map some, s.env⟩ ops).1 = (run g s ops').1 ∧ (mvRun g .nothing ⟨s.vars.map some, s.env⟩ ops).2.env = (run g s ops').2.env := by
    intro ops
    induction ops with
    | nil =>
      intro ops' s h
      rcases ops' with _ | ⟨o, os⟩
      · exact ⟨rfl, rfl⟩
      · simp at h
    | cons op ops ih =>
      intro ops' s h
      rcases ops' with _ | ⟨o, os⟩
      · simp at h
      · simp only [List.map_cons, List.cons.injEq] at h
        obtain ⟨i1, i2⟩ := ih os (step g s o).2 h.2
        simp only [mvRun, run, mvStep_nothing g s op o h.1]
        exact ⟨by rw [i1], i2⟩
  exact key ops ops' (State.init w) h

/-- `auto x = lazy(rd); auto y = lazy(sum, std::move(x), x, 7); auto z = std::move(y); y(); z(); x();` and a name that does not exist. -/
def Demo.usedAgain : List (MvOp Int Int Nat Nat) :=
  [.mk rd [], .mk sum [.move 0, .arg (.var 0), .arg (.value (.data 7))], .move 1, .call 1, .call 2, .call 0, .call 5]

example (g : Glue) (w : Int) : (mvRun g .nothing (MvState.init w) usedAgain).1 =
    (run g (State.init w) [.mk rd [], .mk sum [.var 0, .var 0, .value (.data 7)], .copy 1, .call 1, .call 2, .call 0, .call 5]).1 :=
  (C78_moves_that_copy g w usedAgain _ rfl).1

example : (mvRun .retained .nothing (MvState.init 5) usedAgain : List (Obs Int Nat) × MvState Int Int Nat Nat).1 =
    [.unit, .unit, .unit, .ret (.ok (some (.data 17))), .ret (.ok (some (.data 17))), .ret (.ok (some (.data 5))), .invalid] := by rfl

end Pigro
