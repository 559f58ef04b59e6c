import Verif.Proofs.UserLazy
import Verif.Props.Demo
/-!
# C71: dependencies that are lazy functions of the user's own making
-/
namespace Pigro
open Demo
variable {D W E S O : Type} [CxxData D]

namespace UserLazyDemo

/-- A counter that knows what it showed last. -/
def meter : LFn Int Int Nat (Option Int) := ⟨⟨20, fun s w => (.ok (.data w, s != some w), some w, w)⟩, none⟩

/-- The same, in two digits, always claiming a change. -/
def digits : LFn Int Int Nat (Option Int) := ⟨⟨21, fun _ w => (.ok (.tup [.data (w / 10), .data (w % 10)], true), some w, w)⟩, none⟩

/-- A counter that never says that it changed. -/
def liar : LFn Int Int Nat (Option Int) := ⟨⟨22, fun s w => (.ok (.data w, false), s, w)⟩, none⟩

/-- A counter that breaks down in odd worlds, and does not know it afterwards. -/
def broken : LFn Int Int Nat (Option Int) :=
  ⟨⟨23, fun s w => (if w % 2 = 1 then .error 9 else .ok (.data w, s != some w), if w % 2 = 1 then s else some w, w)⟩, none⟩

/-- Sum of the arguments. -/
def total : UFn Int Int Nat (Option Int) := ⟨⟨3, .val, fun s vs w => (.ok (.data ((vs.map toInt).foldl (· + ·) 0)), s, w)⟩, none⟩

/-- Sum of the arguments, throws if it is ten or more. -/
def small : UFn Int Int Nat (Option Int) := ⟨⟨4, .val, fun s vs w =>
  (if (vs.map toInt).foldl (· + ·) 0 < 10 then .ok (.data ((vs.map toInt).foldl (· + ·) 0)) else .error 7, s, w)⟩, none⟩

/-- What they mean. -/
def sense : XMeaning Int Int Nat (Option Int) Int where
  obs := id
  fn c args := match (c.run none args 0).1 with
    | .ok v => v
    | .error _ => .rvoid
  leaf c o := match (c.run none [] o).1 with
    | .ok v => v
    | .error _ => .rvoid
  now c o := match (c.run none o).1 with
    | .ok v => v.1
    | .error _ => .rvoid
  last c s := s.map fun w => match (c.run none w).1 with
    | .ok v => v.1
    | .error _ => .rvoid

theorem meter_honest : sense.Honest meter.toLCode := by
  intro s w
  refine ⟨s != some w, rfl, rfl, rfl, ?_⟩
  intro h
  have h : s = some w := by simpa using h
  subst h
  rfl

theorem digits_honest : sense.Honest digits.toLCode := fun _ _ => ⟨true, rfl, rfl, rfl, by simp⟩

theorem liar_dishonest (m : XMeaning Int Int Nat (Option Int) Int) (hm : m.obs = id) : ¬ m.Honest liar.toLCode := by
  intro h
  obtain ⟨c1, a1, -, a2, -⟩ := h none 1
  obtain ⟨c2, b1, -, b2, -⟩ := h none 2
  simp only [liar, hm, id, Prod.mk.injEq, Except.ok.injEq] at a1 b1
  simp only [liar, hm, id] at a2 b2
  rw [a2, ← a1.1, ← b1.1] at b2
  simp at b2

/-- `x = lazy(total, meter, 1)`, `y = lazy(total, x, digits, meter)`; calls and changes of the world. -/
def program : List (XOp Int Int Nat (Option Int)) :=
  [.mk total [.user meter, .value (.data 1)], .mk total [.var 0, .user digits, .user meter], .call 1, .poke (· + 1), .call 0, .call 1, .call 1]

end UserLazyDemo
open UserLazyDemo

/-- **C71, nothing else differs**: a program without user-defined lazy functions does in the extended model what it does in the other, for all variants of the
code: same results, same events, same world. -/
theorem C71_conservative (g : Glue) (w : W) (ops : List (Op D W E S)) :
    (xrun g (XState.init w) (ops.map Op.toX)).1 = (run g (State.init w) ops).1 ∧ (xafter g w (ops.map Op.toX)).env = (after g w ops).env := by
  have h := xrun_toX g ops (init_inv (D := D) (E := E) (S := S) w)
  have h0 : (State.init w : State D W E S).toX = XState.init w := rfl
  rw [h0] at h
  exact ⟨by rw [h], by simp only [xafter, h]; rfl⟩

example : (xrun Glue.retained (XState.init 5) ((nested ++ [.call 1, .poke (· + 1), .call 1] : List P).map Op.toX)).1 =
    (run Glue.retained (State.init 5) (nested ++ [.call 1, .poke (· + 1), .call 1]) : _ × State Int Int Nat Nat).1 :=
  (C71_conservative _ _ _).1

/-- **C71, fresh** (for code that keeps the state of the called object, with results by value): whatever the history, if the user-defined lazy functions do
not claim to be unchanged when they are not, every call returns what the whole tree evaluates to now.

Missing for the full property: the pinned code, which dangles (`C71_pinned_dangles`); a lone tuple; functions that throw (see `C71_flags_decide`). -/
theorem C71_fresh_partial (hs : SoundNe D) (g : Glue) (hg : g.Retains) (hv : g.resultByRef = false) (m : XMeaning D W E S O) (w : W)
    (ops : List (XOp D W E S)) (hok : ∀ t ∈ xrunTrees [] ops, m.Ok t) (i : Nat) (t : XTree D W E S) (ht : (xrunTrees [] ops)[i]? = some t) :
    (xstep g (xafter g w ops) (.call i)).1 = .ret (.ok (m.result (m.obs (xafter g w ops).env.w) t)) := by
  have hinv := xrun_inv hs g hg hv m ops (s := XState.init w) (ts := []) ⟨rfl, by simp [XState.init], by simp [XState.init]⟩ hok
  rw [← hinv.trees, List.getElem?_map] at ht
  rcases hi : (xafter g w ops).vars[i]? with _ | o
  · rw [hi] at ht; simp at ht
  · rw [hi] at ht
    simp only [Option.map_some, Option.some.injEq] at ht
    have hm := List.mem_of_getElem? hi
    have hokt : m.Ok o.tree := hok _ (hinv.trees ▸ List.mem_map_of_mem hm)
    obtain ⟨o', env', e1, -⟩ := callX_good hs g hg hv m o (xafter g w ops).env (hinv.facade o hm) hokt (hinv.good o hm)
    simp only [xstep, hi, e1, ht]

/-- The hypothesis of `C71_fresh_partial` for the program of the example. -/
theorem program_ok : ∀ t ∈ xrunTrees [] program, sense.Ok t := by
  have hx : sense.Ok (.lazy total.toFnCode [.user meter.toLCode, .value (.data 1)]) := by
    refine .lazy _ _ (fun s a w => ⟨rfl, rfl⟩) (by simp) ?_
    intro t ht
    simp only [List.mem_cons, List.not_mem_nil, or_false] at ht
    rcases ht with rfl | rfl
    · exact .user _ meter_honest
    · exact .value _
  intro t ht
  simp only [program, xrunTrees, List.foldl, xstepTrees, xargTrees, XArg.tree, List.nil_append, List.getElem?_cons_zero, List.cons_append, List.mem_cons,
    List.not_mem_nil, or_false] at ht
  rcases ht with rfl | rfl
  · exact hx
  · refine .lazy _ _ (fun s a w => ⟨rfl, rfl⟩) (by simp) ?_
    intro t ht
    simp only [List.mem_cons, List.not_mem_nil, or_false] at ht
    rcases ht with rfl | rfl | rfl
    · exact hx
    · exact .user _ digits_honest
    · exact .user _ meter_honest

/-- World 42, then 43: `y` is 43 + 42 and 44 + 43. -/
example : (xstep Glue.retained (xafter Glue.retained 42 program) (.call 1)).1 = .ret (.ok (some (.data 87))) := by
  have hw : (xafter Glue.retained 42 program).env.w = 43 := rfl
  rw [C71_fresh_partial soundNe Glue.retained ⟨rfl, rfl, rfl, rfl⟩ rfl sense 42 program program_ok 1 _ rfl, hw]
  simp [XMeaning.result, XMeaning.eager, sense, total, meter, digits, toInt, RetTy.regularize]

/-- **C71, the flag decides**: a lazy function of user-defined lazy functions is called if and only if there is no last value or one of them says that it
changed, true or not, and whatever they and the function do (throw, change the world, change themselves): each is polled once, from left to right, until one
throws. -/
theorem C71_flags_decide (g : Glue) (hg : g.Retains) (hv : g.resultByRef = false) (hr : g.regParamByValue = false) (f : UFn D W E S)
    (ls : List (LFn D W E S)) (hlone : NoTupleAlone (ls.map LFn.toLCode)) (w : W) (l : List (Option (W → W))) :
    (xrun g (XState.init w) (.mk f (ls.map .user) :: l.map watchOp)).1 = .unit :: ((⟨f, ls, none⟩ : Watch D W E S).run w l).1 ∧
    (xafter g w (.mk f (ls.map .user) :: l.map watchOp)).env.w = ((⟨f, ls, none⟩ : Watch D W E S).run w l).2.2 := by
  have hens : ∀ ls : List (LFn D W E S), ensureX [] (ls.map XArg.user) = some (ls.map XObj.user) := by
    intro ls
    induction ls with
    | nil => rfl
    | cons l ls ih => simp [ensureX, XArg.ensure, ih]
  have hstep : xstep g (XState.init w) (.mk f (ls.map .user)) = (.unit, ⟨[lazyX f (ls.map .user)], ⟨w, []⟩⟩) := by
    simp [xstep, XState.init, hens]
  have := watch_run g hg hv hr l ⟨f, ls, none⟩ ⟨[lazyX f (ls.map .user)], ⟨w, []⟩⟩
    ⟨_, rfl, Cache.empty f.ret, rfl, Cache.empty_fits _, Cache.empty_val? _⟩ hlone
  simp only [xafter, xrun, hstep]
  exact ⟨congrArg (Obs.unit :: ·) this.1, this.2⟩

/-- Called, not called, throwing functions: in world 2 the sum is 4; in world 3 the second throws; in world 4 the sum is 8; in world 6, the function throws;
called again, nothing has changed any more: 8. -/
example : (xrun Glue.retained (XState.init 2) (.mk small [.user meter, .user broken] :: [none, some (· + 1), none, some (· + 1), none, none, some (· + 2), none, none].map watchOp)).1 =
    .unit :: ((⟨small, [meter, broken], none⟩ : Watch Int Int Nat (Option Int)).run 2 [none, some (· + 1), none, some (· + 1), none, none, some (· + 2), none, none]).1 ∧
    ((⟨small, [meter, broken], none⟩ : Watch Int Int Nat (Option Int)).run 2 [none, some (· + 1), none, some (· + 1), none, none, some (· + 2), none, none]).1 =
    [.ret (.ok (some (.data 4))), .unit, .ret (.thrown 9), .unit, .ret (.ok (some (.data 8))), .ret (.ok (some (.data 8))), .unit, .ret (.thrown 7),
      .ret (.ok (some (.data 8)))] :=
  ⟨(C71_flags_decide Glue.retained ⟨rfl, rfl, rfl, rfl⟩ rfl rfl small [meter, broken] (by intro c h; simp at h) 2 _).1, rfl⟩

/-- **C71 fails where a flag lies**: the result is the one of the first call, whatever the world is. -/
theorem C71_dishonest_stale (w w' : Int) :
    (xrun Glue.retained (XState.init w) [.mk total [.user liar], .call 0, .poke (fun _ => w'), .call 0]).1 =
      [.unit, .ret (.ok (some (.data w))), .unit, .ret (.ok (some (.data w)))] := by
  have h := (C71_flags_decide Glue.retained ⟨rfl, rfl, rfl, rfl⟩ rfl rfl total [liar] (by
    intro c h s w v ch hr xs
    simp only [List.map_cons, List.map_nil, List.cons.injEq, and_true] at h
    subst h
    simp only [liar, Except.ok.injEq, Prod.mk.injEq] at hr
    rw [← hr.1]
    simp) w [none, some (fun _ => w'), none]).1
  simp only [List.map_cons, List.map_nil, watchOp] at h
  rw [h]
  simp [Watch.run, Watch.call, Watch.seen, pollUsers, liar, total, toInt]

/-- The second call of `C71_dishonest_stale` returns 1 where the value is 2; no meaning makes this user-defined lazy function honest. -/
example : (xrun Glue.retained (XState.init 1) [.mk total [.user liar], .call 0, .poke (fun _ => 2), .call 0]).1 =
      [.unit, .ret (.ok (some (.data 1))), .unit, .ret (.ok (some (.data 1)))] ∧ ¬ sense.Honest liar.toLCode :=
  ⟨C71_dishonest_stale 1 2, liar_dishonest sense rfl⟩

/-- **C71 is false of the pinned code**: where the result refers to a copy, no call returns a value, in no history and for no dependencies: it throws, or reads
a dead object. -/
theorem C71_pinned_dangles (w : W) (ops : List (XOp D W E S)) (i : Nat) (h : i < (xafter Glue.asWritten w ops).vars.length) :
    (xstep Glue.asWritten (xafter Glue.asWritten w ops) (.call i)).1 = .ret .ub ∨
    ∃ e, (xstep Glue.asWritten (xafter Glue.asWritten w ops) (.call i)).1 = .ret (.thrown e) := by
  have hm := xrun_made Glue.asWritten ops (s := XState.init w) (by simp [XState.init]) _ (List.getElem_mem h)
  have hi := List.getElem?_eq_getElem h
  simp only [xstep, hi]
  rcases callX_dangles Glue.asWritten rfl (.inl rfl) hm (xafter Glue.asWritten w ops).env with h | ⟨e, h⟩
  · exact .inl (by rw [h])
  · exact .inr ⟨e, by rw [h]⟩

example : (xstep Glue.asWritten (xafter Glue.asWritten 42 program) (.call 1)).1 = .ret .ub := rfl

end Pigro
