import Verif.Spec.Convert
import Verif.Proofs.Refactor
import Verif.Proofs.Shape
/-!
# Proof: functions that convert their results themselves (C100)
-/
namespace Pigro.Cvt
open Rfc (Near Looks)
variable {D W E S : Type}

/-- Objects with such functions. -/
def convF (Cv : Nat → Conversion D) : Fun D W E S → Fun D W E S
  | .regularized u => .regularized (converting Cv u)
  | .wrapDep u => .wrapDep u

mutual
def convO (Cv : Nat → Conversion D) : Obj D W E S → Obj D W E S
  | .lazyValue v c => .lazyValue v c
  | .core f c ds => .core (convF Cv f) c (convL Cv ds)
  | .unwrapped i => .unwrapped (convO Cv i)
  | .unregularized i => .unregularized (convO Cv i)
def convL (Cv : Nat → Conversion D) : List (Obj D W E S) → List (Obj D W E S)
  | [] => []
  | d :: ds => convO Cv d :: convL Cv ds
end

theorem convL_map (Cv : Nat → Conversion D) : ∀ ds : List (Obj D W E S), convL Cv ds = ds.map (convO Cv)
  | [] => by simp [convL]
  | d :: ds => by simp [convL, convL_map Cv ds]

theorem convF_keep (Cv : Nat → Conversion D) (b : Bool) (f f' : Fun D W E S) : convF Cv (keep b f f') = keep b (convF Cv f) (convF Cv f') := by cases b <;> rfl
theorem convO_keep (Cv : Nat → Conversion D) (b : Bool) (o o' : Obj D W E S) : convO Cv (keep b o o') = keep b (convO Cv o) (convO Cv o') := by cases b <;> rfl
theorem convL_keep (Cv : Nat → Conversion D) (b : Bool) (o o' : List (Obj D W E S)) : convL Cv (keep b o o') = keep b (convL Cv o) (convL Cv o') := by cases b <;> rfl

theorem valueIsRV_conv (Cv : Nat → Conversion D) : ∀ o : Obj D W E S, (convO Cv o).valueIsRV = o.valueIsRV
  | .lazyValue v c => by simp [convO]
  | .core f c ds => by cases c <;> simp [convO, Obj.valueIsRV]
  | .unwrapped i => by simp [convO, Obj.valueIsRV, valueIsRV_conv Cv i]
  | .unregularized i => by simp [convO, Obj.valueIsRV, valueIsRV_conv Cv i]

theorem near_log {x y : Env D W S} (h : Near (calls (D := D) (S := S)) x y) {w : W} (k : Kind) (i : Nat) (args : List (Val D)) (s s' : S) (l l' : List (Ev D S)) (hl : l.filter calls = l'.filter calls) :
    Near (calls (D := D) (S := S)) ⟨w, x.log ++ [.call k i args s s'] ++ l⟩ ⟨w, y.log ++ [.call k i args s s'] ++ l'⟩ := by
  refine ⟨rfl, ?_⟩
  simp only [List.filter_append, h.2, hl]

theorem cmps_none (c : Cache D) (r : Val D) : (cmpEvents c r : List (Ev D S)).filter calls = [] := by
  rcases c with (_ | v) | _ <;> simp [cmpEvents, calls]

variable [CxxData D]

theorem cacheNe_compat {C : Conversion D} (h : Compatible C) (c : Cache D) (r : Val D) : cacheNe C c r = c.ne (C.conv r) := by
  rcases c with (_ | v) | b
  · rfl
  · exact h v r
  · rfl

theorem conversion_compat {Cv : Nat → Conversion D} (h : ∀ k, Compatible (Cv k)) (f : Fun D W E S) : Compatible (conversion Cv f) := by
  rcases f with u | u
  · simp only [conversion]
    split
    · exact h _
    · exact fun a b => rfl
  · exact fun a b => rfl

/-- The call at lazy.h:56: the same, but for the conversion. -/
theorem call_conv (g : Glue) (Cv : Nat → Conversion D) (f : Fun D W E S) (args : List (Val D)) {x y : Env D W S} (hn : Near calls x y) :
    ((convF Cv f).call g args y).1 = (f.call g args x).1.map (conversion Cv f).conv ∧ ((convF Cv f).call g args y).2.1 = convF Cv (f.call g args x).2.1 ∧
      Near calls (f.call g args x).2.2 ((convF Cv f).call g args y).2.2 := by
  have hw := hn.1
  rcases f with u | u
  · rcases hr : u.run u.st args y.w with ⟨q, st', w'⟩
    have hnear : ∀ a, Near (calls (D := D) (S := S)) ⟨w', x.log ++ [.call .fn u.id a u.st st']⟩ ⟨w', y.log ++ [.call .fn u.id a u.st st']⟩ := by
      intro a; simpa using near_log hn (w := w') .fn u.id a u.st st' [] [] rfl
    rcases q with e | v
    · have h1 : (Fun.regularized u).call g args x = (.thrown e, .regularized (keep g.regParamByValue u ⟨u.toFnCode, st'⟩), ⟨w', x.log ++ [.call .fn u.id args u.st st']⟩) := by
        simp only [Fun.call, UFn.invoke, hw, hr]
      have h2 : (convF Cv (Fun.regularized u)).call g args y =
          (.thrown e, .regularized (keep g.regParamByValue (converting Cv u) (converting Cv ⟨u.toFnCode, st'⟩)), ⟨w', y.log ++ [.call .fn u.id args u.st st']⟩) := by
        simp only [convF, Fun.call, UFn.invoke, converting, hr, Except.map]
      rw [h1, h2]
      refine ⟨rfl, ?_, hnear args⟩
      cases g.regParamByValue <;> rfl
    · have h1 : (Fun.regularized u).call g args x = (.ok (u.ret.regularize v), .regularized (keep g.regParamByValue u ⟨u.toFnCode, st'⟩), ⟨w', x.log ++ [.call .fn u.id args u.st st']⟩) := by
        simp only [Fun.call, UFn.invoke, hw, hr]
      have h2 : (convF Cv (Fun.regularized u)).call g args y =
          (.ok (u.ret.regularize (if u.ret = .val then (Cv u.id).conv v else v)), .regularized (keep g.regParamByValue (converting Cv u) (converting Cv ⟨u.toFnCode, st'⟩)),
            ⟨w', y.log ++ [.call .fn u.id args u.st st']⟩) := by
        simp only [convF, Fun.call, UFn.invoke, converting, hr, Except.map]
      rw [h1, h2]
      refine ⟨?_, ?_, hnear args⟩
      · simp only [conversion, Out.map]
        cases u.ret <;> simp [RetTy.regularize, Conversion.same]
      · cases g.regParamByValue <;> rfl
  · rcases hr : u.run u.st [] y.w with ⟨q, st', w'⟩
    have hnear : Near (calls (D := D) (S := S)) ⟨w', x.log ++ [.call .dep u.id [] u.st st']⟩ ⟨w', y.log ++ [.call .dep u.id [] u.st st']⟩ := by
      simpa using near_log hn (w := w') .dep u.id [] u.st st' [] [] rfl
    rcases q with e | v <;> simp only [convF, Fun.call, UFn.invoke, hw, hr, conversion, Conversion.same, Out.map, id] <;> exact ⟨trivial, trivial, hnear⟩

theorem tail_conv {Cv : Nat → Conversion D} (hC : ∀ k, Compatible (Cv k)) (g : Glue) (f : Fun D W E S) (c : Cache D) (rs : List (LazyRes D)) {x y : Env D W S} (hn : Near calls x y) :
    let a := coreTail g Cv f c rs x
    let b := Pigro.coreTail g (convF Cv f) c rs y
    b.1 = a.1 ∧ b.2.1 = convF Cv a.2.1 ∧ b.2.2.1 = a.2.2.1 ∧ Near calls a.2.2.2 b.2.2.2 := by
  dsimp only
  cases hch : (!c.engaged || any LazyRes.isChanged rs) with
  | false =>
    simp only [coreTail, Pigro.coreTail, hch, Bool.false_eq_true, if_false]
    rcases c.deref with _ | w
    · exact ⟨rfl, rfl, rfl, hn⟩
    · exact ⟨rfl, rfl, rfl, hn⟩
  | true =>
    simp only [coreTail, Pigro.coreTail, hch, if_true]
    rcases readValues rs with _ | args
    · exact ⟨rfl, rfl, rfl, hn⟩
    · simp only
      obtain ⟨h1, h2, h3⟩ := call_conv g Cv f args hn
      rcases hq : f.call g args x with ⟨o, f', x'⟩
      rcases hq' : (convF Cv f).call g args y with ⟨o', f'', y'⟩
      rw [hq, hq'] at h1 h2 h3
      replace h1 : o' = o.map (conversion Cv f).conv := h1
      replace h2 : f'' = convF Cv f' := h2
      replace h3 : Near calls x' y' := h3
      subst h1 h2
      cases o with
      | ok r =>
        simp only [Out.map, cacheNe_compat (conversion_compat hC f)]
        rcases (c.assign ((conversion Cv f).conv r)).deref with _ | z
        · exact ⟨rfl, rfl, rfl, h3⟩
        · exact ⟨rfl, rfl, rfl, h3.1, by simp only [List.filter_append, cmps_none, h3.2]⟩
      | thrown e => exact ⟨rfl, rfl, rfl, h3⟩
      | ub => exact ⟨rfl, rfl, rfl, h3⟩
      | illFormed => exact ⟨rfl, rfl, rfl, h3⟩

mutual
theorem evalN_conv {Cv : Nat → Conversion D} (hC : ∀ k, Compatible (Cv k)) (g : Glue) : ∀ (o : Obj D W E S) {x y : Env D W S}, Near calls x y →
    (Pigro.evalN g (convO Cv o) y).1 = (evalN g Cv o x).1 ∧ (Pigro.evalN g (convO Cv o) y).2.1 = convO Cv (evalN g Cv o x).2.1 ∧
      Near calls (evalN g Cv o x).2.2 (Pigro.evalN g (convO Cv o) y).2.2
  | .lazyValue v c, x, y, hn => by
    rw [convO, Pigro.evalN, evalN]
    exact ⟨rfl, by rw [convO], hn⟩
  | .core f c ds, x, y, hn => by
    obtain ⟨h1, h2, h3⟩ := evalDeps_conv hC g ds hn
    rw [convO, Pigro.evalN, evalN]
    rcases e1 : evalDeps g Cv ds x with ⟨o, ds', x'⟩
    rcases e2 : Pigro.evalDeps g (convL Cv ds) y with ⟨o', ds'', y'⟩
    rw [e1, e2] at h1 h2 h3
    replace h1 : o' = o := h1
    replace h2 : ds'' = convL Cv ds' := h2
    replace h3 : Near calls x' y' := h3
    subst h1 h2
    cases o' with
    | ok rs =>
      obtain ⟨t1, t2, t3, t4⟩ := tail_conv hC g f c rs h3
      rcases e3 : coreTail g Cv f c rs x' with ⟨q, f', c', x''⟩
      rcases e4 : Pigro.coreTail g (convF Cv f) c rs y' with ⟨q', f'', c'', y''⟩
      rw [e3, e4] at t1 t2 t3 t4
      simp only [e3, e4]
      replace t1 : q' = q := t1
      replace t2 : f'' = convF Cv f' := t2
      replace t3 : c'' = c' := t3
      subst t1 t2 t3
      exact ⟨rfl, by rw [convO, convF_keep, convL_keep], t4⟩
    | thrown e => exact ⟨rfl, by simp only [convO, convL_keep], h3⟩
    | ub => exact ⟨rfl, by simp only [convO, convL_keep], h3⟩
    | illFormed => exact ⟨rfl, by simp only [convO, convL_keep], h3⟩
  | .unwrapped i, x, y, hn => by
    obtain ⟨h1, h2, h3⟩ := evalN_conv hC g i hn
    rw [convO, Pigro.evalN, evalN]
    simp only [h1, h2]
    exact ⟨trivial, by rw [convO, convO_keep], h3⟩
  | .unregularized i, x, y, hn => by
    obtain ⟨h1, h2, h3⟩ := evalN_conv hC g i hn
    rw [convO, Pigro.evalN, evalN]
    simp only [h1, h2]
    exact ⟨trivial, by rw [convO, convO_keep], h3⟩
theorem evalDeps_conv {Cv : Nat → Conversion D} (hC : ∀ k, Compatible (Cv k)) (g : Glue) : ∀ (ds : List (Obj D W E S)) {x y : Env D W S}, Near calls x y →
    (Pigro.evalDeps g (convL Cv ds) y).1 = (evalDeps g Cv ds x).1 ∧ (Pigro.evalDeps g (convL Cv ds) y).2.1 = convL Cv (evalDeps g Cv ds x).2.1 ∧
      Near calls (evalDeps g Cv ds x).2.2 (Pigro.evalDeps g (convL Cv ds) y).2.2
  | [], x, y, hn => by
    rw [convL, Pigro.evalDeps, evalDeps]
    exact ⟨rfl, by rw [convL], hn⟩
  | d :: ds, x, y, hn => by
    obtain ⟨h1, h2, h3⟩ := evalN_conv hC g d hn
    rw [convL, Pigro.evalDeps, evalDeps]
    rcases e1 : evalN g Cv d x with ⟨o, d', x'⟩
    rcases e2 : Pigro.evalN g (convO Cv d) y with ⟨o', d'', y'⟩
    rw [e1, e2] at h1 h2 h3
    replace h1 : o' = o := h1
    replace h2 : d'' = convO Cv d' := h2
    replace h3 : Near calls x' y' := h3
    subst h1 h2
    cases o' with
    | ok r =>
      obtain ⟨t1, t2, t3⟩ := evalDeps_conv hC g ds h3
      simp only [t1, t2]
      exact ⟨trivial, by rw [convL], t3⟩
    | thrown e => exact ⟨rfl, by simp only [convL], h3⟩
    | ub => exact ⟨rfl, by simp only [convL], h3⟩
    | illFormed => exact ⟨rfl, by simp only [convL], h3⟩
end

theorem call0_conv {Cv : Nat → Conversion D} (hC : ∀ k, Compatible (Cv k)) (g : Glue) : ∀ (o : Obj D W E S) {x y : Env D W S}, Near calls x y →
    (Pigro.call0 g (convO Cv o) y).1 = (call0 g Cv o x).1 ∧ (Pigro.call0 g (convO Cv o) y).2.1 = convO Cv (call0 g Cv o x).2.1 ∧
      Near calls (call0 g Cv o x).2.2 (Pigro.call0 g (convO Cv o) y).2.2
  | .lazyValue v c, x, y, hn => by
    rw [convO, Pigro.call0, call0]
    · exact ⟨rfl, by rw [convO], hn⟩
    all_goals simp
  | .core f c ds, x, y, hn => by
    rw [convO, Pigro.call0, call0]
    · exact ⟨rfl, by rw [convO], hn⟩
    all_goals simp
  | .unwrapped i, x, y, hn => by
    obtain ⟨h1, h2, h3⟩ := evalN_conv hC g (.unwrapped i) hn
    rw [convO] at h1 h2 h3 ⊢
    rw [Pigro.call0, call0]
    rcases e1 : evalN g Cv (.unwrapped i) x with ⟨o, d', x'⟩
    rcases e2 : Pigro.evalN g (.unwrapped (convO Cv i)) y with ⟨o', d'', y'⟩
    rw [e1, e2] at h1 h2 h3
    replace h1 : o' = o := h1
    replace h2 : d'' = convO Cv d' := h2
    replace h3 : Near calls x' y' := h3
    subst h1 h2
    cases o' <;> exact ⟨rfl, rfl, h3⟩
  | .unregularized i, x, y, hn => by
    obtain ⟨h1, h2, h3⟩ := call0_conv hC g i hn
    rw [convO, Pigro.call0, call0]
    simp only [h1, h2, valueIsRV_conv]
    exact ⟨trivial, by rw [convO, convO_keep], h3⟩

/-! ### Programs -/

theorem resolve_conv (Cv : Nat → Conversion D) (f : UFn D W E S) (vars : List (Obj D W E S)) (deps : List (ArgRef D W E S)) :
    (resolveAll (vars.map (convO Cv)) deps).bind (pigroLazy (converting Cv f)) = ((resolveAll vars deps).bind (pigroLazy f)).map (convO Cv) := by
  have key : ∀ deps : List (ArgRef D W E S), (resolveAll (vars.map (convO Cv)) deps).bind ensureAll = ((resolveAll vars deps).bind ensureAll).map (convL Cv) := by
    intro deps
    induction deps with
    | nil => simp [resolveAll, ensureAll, convL]
    | cons d deps ih =>
      have one : (d.resolve (vars.map (convO Cv))).bind ensureLazy = ((d.resolve vars).bind ensureLazy).map (convO Cv) := by
        rcases d with v | u | i
        · simp [ArgRef.resolve, show ensureLazy (DepArg.value v : DepArg D W E S) = some (.lazyValue v false) from rfl, convO]
        · have : ∀ u : UFn D W E S, ensureLazy (DepArg.function u) = if u.ret = .void then none else some (Pigro.detailLazy (.wrapDep u) [.lazyValue (.data CxxData.zero) true]) := fun u => rfl
          simp only [ArgRef.resolve, Option.bind_some, this]
          split
          · rfl
          · simp [Pigro.detailLazy, convO, convL, convF]
        · simp only [ArgRef.resolve, List.getElem?_map]
          rcases vars[i]? with _ | o
          · rfl
          · simp only [Option.map_some, Option.bind_some]
            rcases o with _ | _ | o | o <;> simp [convO, ensureLazy, DepArg.caps, Obj.caps, ensureSelect, ensureViable, moreConstrained]
      have split : ∀ vars : List (Obj D W E S), (resolveAll vars (d :: deps)).bind ensureAll =
          match (d.resolve vars).bind ensureLazy, (resolveAll vars deps).bind ensureAll with
          | some o, some os => some (o :: os)
          | _, _ => none := by
        intro vars
        rw [resolveAll]
        rcases d.resolve vars with _ | a
        · rfl
        · rcases resolveAll vars deps with _ | as
          · simp only [Option.bind_none, Option.bind_some]
            rcases ensureLazy a with _ | o <;> rfl
          · simp only [Option.bind_some, ensureAll]
            rcases ensureLazy a with _ | o
            · rfl
            · rcases ensureAll as with _ | os <;> rfl
      rw [split, split, one, ih]
      rcases (d.resolve vars).bind ensureLazy with _ | o
      · rfl
      · rcases (resolveAll vars deps).bind ensureAll with _ | os
        · rfl
        · simp [convL]
  have hk := key deps
  have unf : ∀ (f : UFn D W E S) (q : Option (List (DepArg D W E S))), q.bind (pigroLazy f) = (q.bind ensureAll).map fun ds => .unregularized (.unwrapped (Pigro.detailLazy (.regularized f) ds)) := by
    intro f q
    rcases q with _ | as
    · rfl
    · simp only [Option.bind_some, pigroLazy]
      rcases ensureAll as with _ | ds <;> rfl
  rw [unf, unf, hk]
  rcases (resolveAll vars deps).bind ensureAll with _ | ds
  · rfl
  · simp [convO, Pigro.detailLazy, convF, Fun.ret, converting]

theorem step_conv {Cv : Nat → Conversion D} (hC : ∀ k, Compatible (Cv k)) (g : Glue) (s t : State D W E S) (hv : t.vars = s.vars.map (convO Cv)) (hn : Near calls s.env t.env) (op : Op D W E S) :
    (Pigro.step g t (Op.converting Cv op)).1 = (step g Cv s op).1 ∧ (Pigro.step g t (Op.converting Cv op)).2.vars = (step g Cv s op).2.vars.map (convO Cv) ∧
      Near calls (step g Cv s op).2.env (Pigro.step g t (Op.converting Cv op)).2.env := by
  cases op with
  | mk f deps =>
    simp only [Op.converting, Pigro.step, step, hv, resolve_conv]
    rcases (resolveAll s.vars deps).bind (pigroLazy f) with _ | o
    · exact ⟨rfl, hv, hn⟩
    · exact ⟨rfl, by simp, hn⟩
  | copy i =>
    simp only [Op.converting, Pigro.step, step, hv, List.getElem?_map]
    rcases s.vars[i]? with _ | o
    · exact ⟨rfl, hv, hn⟩
    · exact ⟨rfl, by simp, hn⟩
  | call i =>
    simp only [Op.converting, Pigro.step, step, hv, List.getElem?_map]
    rcases s.vars[i]? with _ | o
    · exact ⟨rfl, hv, hn⟩
    · obtain ⟨h1, h2, h3⟩ := call0_conv hC g o hn
      simp only [Option.map_some, h1, h2]
      exact ⟨trivial, by rw [List.map_set], h3⟩
  | poll i =>
    simp only [Op.converting, Pigro.step, step, hv, List.getElem?_map]
    rcases s.vars[i]? with _ | o
    · exact ⟨rfl, hv, hn⟩
    · obtain ⟨h1, h2, h3⟩ := evalN_conv hC g o hn
      simp only [Option.map_some, h1, h2]
      exact ⟨trivial, by rw [List.map_set], h3⟩
  | poke h => exact ⟨rfl, hv, by simp only [Op.converting, Pigro.step, step]; exact ⟨by rw [hn.1], hn.2⟩⟩

theorem run_conv {Cv : Nat → Conversion D} (hC : ∀ k, Compatible (Cv k)) (g : Glue) : ∀ (ops : List (Op D W E S)) (s t : State D W E S), t.vars = s.vars.map (convO Cv) → Near calls s.env t.env →
    Looks calls (run g Cv s ops) (Pigro.run g t (ops.map (Op.converting Cv)))
  | [], _, _, _, hn => ⟨rfl, hn.1, hn.2⟩
  | op :: ops, s, t, hv, hn => by
    obtain ⟨h1, h2, h3⟩ := step_conv hC g s t hv hn op
    obtain ⟨k1, k2, k3⟩ := run_conv hC g ops _ _ h2 h3
    exact ⟨by simp only [run, Pigro.run, List.map_cons, h1, k1], k2, k3⟩

end Pigro.Cvt
