import Verif.Spec.LazyGlue
import Verif.Proofs.GlueBind
/-!
# The memory-level program does what `Glue` says
-/
namespace Pigro.LM
open Cxx
variable {D W E S : Type}

/-! ### The end of a function -/

/-- The memory after a function with by-value parameters (`byValue`), its body having started at `lo`. -/
def ended (byValue : Bool) (lo : Nat) (m : LMem D W E S) : LMem D W E S := if byValue then m.killRange lo m.next else m

theorem endingIf_eq {A R : Type} (b : Bool) (body : A → LMem D W E S → R × LMem D W E S) (a : A) (m : LMem D W E S) :
    endingIf b body a m = ((body a m).1, ended b m.next (body a m).2) := by
  cases b <;> rfl

theorem ended_get (b : Bool) (lo : Nat) (m : LMem D W E S) : (ended b lo m).get = m.get := by cases b <;> rfl

theorem ended_next (b : Bool) (lo : Nat) (m : LMem D W E S) : (ended b lo m).next = m.next := by cases b <;> rfl

theorem ended_world (b : Bool) (lo : Nat) (m : LMem D W E S) : (ended b lo m).world = m.world := by cases b <;> rfl

theorem ended_alive (b : Bool) (lo : Nat) (m : LMem D W E S) (a : Nat) :
    (ended b lo m).alive a = (m.alive a && !(b && (decide (lo ≤ a) && decide (a < m.next)))) := by
  cases b <;> simp [ended, Mem.killRange]

theorem Keeps.ended {X : Nat → Prop} {m m1 : LMem D W E S} (h : Keeps X m m1) (b : Bool) (lo : Nat) (hlo : m.next ≤ lo) : Keeps X m (ended b lo m1) := by
  cases b
  · exact h
  · exact h.killRange _ _ hlo

/-! ### With copies, this is the program of Model/LazyMem.lean -/

theorem callBoundG_true {R : Type} (Λ : LLang D W E S) (b : Bound LB) (code : LCode D W E S R)
    (mk : MV D W E S → List (MV D W E S) → Option (MV D W E S)) (callee : Expr LB) (args : List (Expr LB)) (m0 m : LMem D W E S) :
    callBoundG Λ true b code mk callee args m0 m = callBound Λ b code mk callee args m0 m := by
  simp only [callBoundG, callBound, callG_true]
  rfl

theorem funCodeG_written (Λ : LLang D W E S) (byRef : Bool) (k : FunSh) : funCodeG Λ (written byRef) k = funCode Λ k := by
  funext callee args m
  cases k <;> simp only [funCodeG, funCode, written, Glue.asWritten, callBoundG_true] <;> rfl

theorem coreBodyG_written [CxxData D] (Λ : LLang D W E S) (byRef : Bool) (k : FunSh)
    (evalD : List (Expr LB) → LMem D W E S → Out E (List (LRes D)) × LMem D W E S) (callee : Expr LB) (ps : List (Expr LB)) (m : LMem D W E S) :
    coreBodyG Λ (written byRef) k evalD callee ps m = coreBody Λ byRef k evalD callee ps m := by
  simp only [coreBodyG, coreBody, funCodeG_written]
  rfl

theorem coreLamG_written [CxxData D] (Λ : LLang D W E S) (byRef : Bool) (k : FunSh)
    (evalD : List (Expr LB) → LMem D W E S → Out E (List (LRes D)) × LMem D W E S) :
    coreLamG Λ (written byRef) k evalD = coreLam Λ byRef k evalD := by
  funext callee args m
  simp only [coreLamG, coreLam, paramsG, written, Glue.asWritten, if_true]
  congr 1

theorem unregularizedCodeG_written {R : Type} (Λ : LLang D W E S) (byRef : Bool) (inner : LCode D W E S R) :
    unregularizedCodeG Λ (written byRef) inner = unregularizedCode Λ inner := by
  funext callee args m
  simp only [unregularizedCodeG, unregularizedCode, written, Glue.asWritten, callBoundG_true]
  rfl

mutual
theorem callNG_written [CxxData D] (Λ : LLang D W E S) (byRef : Bool) : ∀ s : Sh, callNG Λ (written byRef) s = callN Λ byRef s
  | .lazyValue _ => by
    funext callee args m
    simp only [callNG, callN, written, Glue.asWritten, callBoundG_true]
    rfl
  | .core k deps => by
    funext callee args m
    have h : callDepsG Λ (written byRef) deps = callDeps Λ byRef deps := by
      funext es m
      exact callDepsG_written Λ byRef deps es m
    simp only [callNG, callN, coreLamG_written, h]
    simp only [written, Glue.asWritten, callBoundG_true]
    rfl
  | .unwrapped inner => by
    funext callee args m
    simp only [callNG, callN, callNG_written Λ byRef inner]
    simp only [written, Glue.asWritten, callBoundG_true]
    rfl
  | .unregularized inner => by
    rw [callNG, callN, callNG_written Λ byRef inner, unregularizedCodeG_written]
theorem callDepsG_written [CxxData D] (Λ : LLang D W E S) (byRef : Bool) : ∀ (ss : List Sh) (es : List (Expr LB)) (m : LMem D W E S),
    callDepsG Λ (written byRef) ss es m = callDeps Λ byRef ss es m
  | [], _, _ => rfl
  | s :: ss, [], _ => by rw [callDepsG, callDeps]
  | s :: ss, e :: es, m => by
    rw [callDepsG, callDeps, callNG_written Λ byRef s]
    simp only [callDepsG_written Λ byRef ss]
    rfl
end

theorem callZG_written [CxxData D] (Λ : LLang D W E S) (byRef : Bool) : ∀ s : Sh, callZG Λ (written byRef) s = callZ Λ byRef s
  | .lazyValue _ => rfl
  | .core _ _ => rfl
  | .unwrapped inner => by
    funext callee args m
    simp only [callZG, callZ, callNG_written]
    rfl
  | .unregularized inner => by
    funext callee args m
    simp only [callZG, callZ, callZG_written Λ byRef inner, unregularizedCodeG_written]
    rfl

/-- With copies everywhere, it is the program of Model/LazyMake.lean. -/
theorem stepMG_written [CxxData D] (Λ : LLang D W E S) (byRef : Bool) (s : MState D W E S) (op : Op D W E S) :
    stepMG Λ (written byRef) s op = stepM Λ byRef s op := by
  cases op <;> simp only [stepMG, stepM, callZG_written, callNG_written] <;> rfl

theorem runMG_written [CxxData D] (Λ : LLang D W E S) (byRef : Bool) : ∀ (ops : List (Op D W E S)) (s : MState D W E S),
    runMG Λ (written byRef) s ops = runM Λ byRef s ops
  | [], _ => rfl
  | op :: ops, s => by
    simp only [runMG, runM, stepMG_written, runMG_written Λ byRef ops]

/-! ### Members -/

theorem keep_map {α β : Type} (b : Bool) (f : α → β) (x y : α) : keep b (f x) (f y) = f (keep b x y) := by cases b <;> rfl

theorem keep_self {α : Type} (b : Bool) (x : α) : keep b x x = x := by cases b <;> rfl

/-- The result of calling a bound callable, the object `y` afterwards. -/
theorem callBoundG_eq {R : Type} {Λ : LLang D W E S} {copies : Bool} {b : Bound LB} {code : LCode D W E S R}
    {mk : MV D W E S → List (MV D W E S) → Option (MV D W E S)} {callee : Expr LB} {args : List (Expr LB)} {m0 m : LMem D W E S}
    {o : Out E R} {mb : LMem D W E S} {lo hi : Nat} {s y : MV D W E S} {xs : List (MV D W E S)}
    (hc : b.callG Λ.toLang noIdx copies code callee.c callee.cat args m = .invoked o (mb.killRange lo hi))
    (hs : elemVal Λ mb b.f = s) (hxs : b.els.map (elemVal Λ mb) = xs) (hmk : mk s xs = some y) :
    callBoundG Λ copies b code mk callee args m0 m = (o, (mb.killRange lo hi).write callee.addr y) := by
  have h1 : elemVal Λ (mb.killRange lo hi) b.f = s := by
    rw [← hs]
    cases b.f <;> rfl
  have h2 : b.els.map (elemVal Λ (mb.killRange lo hi)) = xs := by
    rw [← hxs]
    apply List.map_congr_left
    intro el _
    cases el <;> rfl
  simp only [callBoundG, hc, h1, h2, hmk, Option.getD_some]

/-- An element is not stored only if its type is empty. -/
theorem layout_empty (Θ : Empties D W E S) (moved : MV D W E S → MV D W E S) : ∀ (xs : List (MV D W E S)) (m : LMem D W E S) (i : Nat) (b : LB),
    (layout (lang Θ moved) xs m).1[i]? = some (.empty b) → ∃ x, xs[i]? = some x ∧ (lang Θ moved).isEmpty ((lang Θ moved).base x) = true
  | [], m, i, b, h => by simp [layout] at h
  | x :: xs, m, i, b, h => by
    rw [layout] at h
    split at h
    · rename_i hx
      rcases i with _ | i
      · exact ⟨x, rfl, hx⟩
      · simpa using layout_empty Θ moved xs m i b (by simpa using h)
    · rcases i with _ | i
      · simp at h
      · simpa using layout_empty Θ moved xs (m.alloc x) i b (by simpa using h)

/-- No two elements share a cell. -/
theorem layout_apart (Θ : Empties D W E S) (moved : MV D W E S → MV D W E S) : ∀ (xs : List (MV D W E S)) (m : LMem D W E S),
    CellsApart (layout (lang Θ moved) xs m).1
  | [], m => by simp [layout, CellsApart]
  | x :: xs, m => by
    rw [layout]
    split
    · exact List.pairwise_cons.2 ⟨by simp [Elem.object], layout_apart Θ moved xs m⟩
    · refine List.pairwise_cons.2 ⟨?_, layout_apart Θ moved xs _⟩
      intro el hel a ha
      simp only [Elem.object, Option.some.injEq] at ha
      rcases (layout_spec Θ moved xs (m.alloc x)).2.1 el hel with ⟨b, rfl⟩ | ⟨b, a', rfl, h2, -⟩
      · simp [Elem.object]
      · rw [alloc_next] at h2
        simp only [Elem.object, ne_eq, Option.some.injEq]
        omega

theorem layout_inCells (Θ : Empties D W E S) (moved : MV D W E S → MV D W E S) (xs : List (MV D W E S)) (m : LMem D W E S) (b : LB) :
    InCells m.next (layout (lang Θ moved) xs m).2.next (.empty b :: (layout (lang Θ moved) xs m).1) := by
  intro el hel
  rcases List.mem_cons.1 hel with rfl | hel
  · exact .inl ⟨_, rfl⟩
  · exact (layout_spec Θ moved xs m).2.1 el hel

theorem layout_apart' (Θ : Empties D W E S) (moved : MV D W E S → MV D W E S) (xs : List (MV D W E S)) (m : LMem D W E S) (b : LB) :
    CellsApart (.empty b :: (layout (lang Θ moved) xs m).1) :=
  List.pairwise_cons.2 ⟨by simp [Elem.object], layout_apart Θ moved xs m⟩

/-! ### Function objects -/

theorem Stateless.invoke {Θ : Empties D W E S} (hΘ : Stateless Θ) {u : UFn D W E S} {moved : MV D W E S → MV D W E S}
    (h : (lang Θ moved).isEmpty ((lang Θ moved).base (.user u)) = true) (k : Kind) (vs : List (Val D)) (env : Env D W S) :
    (u.invoke k vs env).2.1 = u := by
  simp only [lang, Empties.base] at h
  split at h
  · rename_i n hn
    simp only [UFn.invoke, hΘ u n hn]
  · simp [LB.isEmpty] at h

theorem userCode_specG (k : Kind) (callee : Expr LB) (args : List (Expr LB)) (m : LMem D W E S) (u : UFn D W E S) (vs : List (Val D))
    (hu : m.get callee.addr = .user u) (hl : m.alive callee.addr = true) (ha : readArgs m args = some vs) :
    (userCode k callee args m).1 = userOut u (u.invoke k vs m.world).1 ∧
      (userCode k callee args m).2.world = (u.invoke k vs m.world).2.2 ∧
      (userCode k callee args m).2.get callee.addr = .user (u.invoke k vs m.world).2.1 ∧
      Keeps (· = callee.addr) m (userCode k callee args m).2 := by
  obtain ⟨h1, h2, h3⟩ := userCode_spec k callee args m u vs hu hl ha
  refine ⟨h1, h2, ?_, h3⟩
  simp only [userCode, look_eq hl hu, ha]
  rcases hi : u.invoke k vs m.world with ⟨_ | _, u', env'⟩ <;> simp [Mem.write]

theorem call_regularizedG (g : Glue) (u : UFn D W E S) (vs : List (Val D)) (env : Env D W S) :
    Fun.call g (.regularized u) vs env =
      (userOut u (u.invoke .fn vs env).1, .regularized (keep g.regParamByValue u (u.invoke .fn vs env).2.1), (u.invoke .fn vs env).2.2) := by
  rcases hi : u.invoke .fn vs env with ⟨_ | _, u', env'⟩ <;> simp [Fun.call, hi, userOut]

theorem call_wrapDepG (g : Glue) (u : UFn D W E S) (vs : List (Val D)) (env : Env D W S) :
    Fun.call g (.wrapDep u) vs env =
      (userOut u (u.invoke .dep [] env).1, .wrapDep (keep g.wrapParamByValue u (u.invoke .dep [] env).2.1), (u.invoke .dep [] env).2.2) := by
  rcases hi : u.invoke .dep [] env with ⟨_ | _, u', env'⟩ <;> simp [Fun.call, hi, userOut]

/-- Calling the `f` of `detail::lazy`. -/
theorem funCodeG_spec (Θ : Empties D W E S) (hΘ : Stateless Θ) (moved : MV D W E S → MV D W E S) (g : Glue) (f : Fun D W E S) (callee : Expr LB)
    (args : List (Expr LB)) (vs : List (Val D)) (m : LMem D W E S) (hf : m.get callee.addr = .func f)
    (hl : m.alive callee.addr = true)
    (hargs : ∀ e ∈ args, e.cat = .lv ∧ e.addr < m.next) (hal : ∀ e ∈ args, m.alive e.addr = true)
    (hvs : (args.map fun e => m.get e.addr) = vs.map .val) (hone : ∀ u, f = .wrapDep u → vs.length = 1) :
    (funCodeG (lang Θ moved) g (funSh f) callee args m).1 = (f.call g vs m.world).1 ∧
      (funCodeG (lang Θ moved) g (funSh f) callee args m).2.world = (f.call g vs m.world).2.2 ∧
      (funCodeG (lang Θ moved) g (funSh f) callee args m).2.get callee.addr = .func (f.call g vs m.world).2.1 ∧
      Keeps (· = callee.addr) m (funCodeG (lang Θ moved) g (funSh f) callee args m).2 := by
  have hlv : ∀ e ∈ args, e.cat = .lv := fun e he => (hargs e he).1
  rcases f with u | u
  · obtain ⟨p, ps, m', ⟨p1, p2, p3, p4, p5⟩, hps, hpv, hw, hk, ln, hkept, hcall⟩ := frontOneG (E := E) Θ moved g.bindFrontCopies g.regParamByValue
      .regularize (.user u) callee.c callee.cat callee.addr args m (fun e he => (hargs e he).2) (apart_of_lv hlv)
    have hra : readArgs m' ps = some vs := readArgs_eq _ _ _ (by rw [hpv, hvs]) fun q hq => (hps q hq).2.2.2.2 hal
    obtain ⟨h1, h2, h3, h4⟩ := userCode_specG .fn p ps m' u vs p4 p5 hra
    have hk2 : Keeps (· = callee.addr) m (userCode .fn p ps m').2 :=
      (hk.mono fun a _ h => (not_moves_lv hlv a h).elim).trans h4 fun a ha h => by omega
    have hc := hcall (Val D) (endingIf g.regParamByValue fun ps m => match ps with
      | f :: args => userCode .fn f args m
      | [] => (.illFormed, m))
    simp only [endingIf_eq] at hc
    have he : funCodeG (lang Θ moved) g (funSh (.regularized u)) callee args m = ((userCode .fn p ps m').1,
        ((ended g.regParamByValue m'.next (userCode .fn p ps m').2).killRange (layout (lang Θ moved) [.user u] m).2.next m'.next).write callee.addr
          (.func (.regularized (keep g.regParamByValue u (u.invoke .fn vs m.world).2.1)))) := by
      simp only [funSh, funCodeG, look_eq hl hf]
      refine callBoundG_eq (s := .unit) hc rfl (hkept _ (fun a ha h _ => by rw [ended_get]; exact h4.frame a ha h) _ ((congrFun (ended_get _ _ _) _).trans h3) fun h => ?_) ?_
      · rw [hΘ.invoke h]
      · rw [hw, keep_map]
        rfl
    rw [call_regularizedG, he]
    exact ⟨by rw [h1, hw], by rw [← hw]; exact (ended_world _ _ _).trans h2, by simp [Mem.write],
      Keeps.write ((hk2.ended _ _ hk.next).killRange _ _ ln) _ _ (.inr (.inl rfl))⟩
  · obtain ⟨e, rfl⟩ : ∃ e, args = [e] := by
      have h1 := hone u rfl
      have h2 := congrArg List.length hvs
      simp only [List.length_map, h1] at h2
      exact List.length_eq_one_iff.1 h2
    obtain ⟨lg, lels, lhold⟩ := layout_spec Θ moved [.user u] m
    have ln := lg.next
    obtain ⟨fe, ps, m', ⟨f1, f2, f3, -⟩, ⟨al1, -, -⟩, hps, hpw, hpv, hw, hk, hn, hkept, hcall⟩ := backCallG (E := E) Θ moved g.bindFrontCopies g.wrapParamByValue
      (.empty (.lam .poll)) (tupleOf (layout (lang Θ moved) [.user u] m).1 callee.addr) (layout (lang Θ moved) [.user u] m).1 callee.c callee.cat
      (tupleOf_constOk _ _ _) [e] m (layout (lang Θ moved) [.user u] m).2 lg .unit [.user u] (layout_inCells Θ moved _ _ _) (layout_apart' Θ moved _ _ _)
      rfl lhold (fun e he => (hargs e he).2) (apart_of_lv hlv) 0 (by simp)
    simp only [List.drop_zero, List.map_cons, List.map_nil, List.cons_append, List.nil_append] at hpv
    obtain ⟨a, d, rfl⟩ : ∃ a d, ps = [a, d] := by
      exact length_two (by simpa using congrArg List.length hpv)
    simp only [List.map_cons, List.map_nil, List.cons.injEq, and_true] at hpv
    obtain ⟨d1, d2, d3, d4⟩ := hps d (by simp)
    obtain ⟨h1, h2, h3, h4⟩ := userCode_specG .dep d [] m' u [] hpv.2 (al1 _ d2 d3) rfl
    have hk2 : Keeps (· = callee.addr) m (userCode .dep d [] m').2 :=
      (hk.mono fun a _ h => (not_moves_lv hlv a h).elim).trans h4 fun a ha h => by omega
    have hc := hcall (Val D) (fun _ => endingIf g.wrapParamByValue fun ps m => match ps with
      | [_, dep] => userCode .dep dep [] m
      | _ => (.illFormed, m))
    simp only [endingIf_eq] at hc
    obtain ⟨kf, ke⟩ := hkept (ended g.wrapParamByValue m'.next (userCode .dep d [] m').2) (fun a ha _ h => by
      rw [ended_get]
      exact h4.frame a ha fun h' => h d (by simp) h'.symm)
    have ke := ke [.user (u.invoke .dep [] m'.world).2.1] (by simp [ended_get, h3]) (by
      intro i b hi
      obtain ⟨x, h1, h2⟩ := layout_empty Θ moved _ _ i b hi
      rcases i with _ | i
      · simp only [List.getElem?_cons_zero, Option.some.injEq] at h1
        subst h1
        rw [hΘ.invoke h2]
      · simp at h1)
    have he : funCodeG (lang Θ moved) g (funSh (.wrapDep u)) callee [e] m = ((userCode .dep d [] m').1,
        ((ended g.wrapParamByValue m'.next (userCode .dep d [] m').2).killRange (layout (lang Θ moved) [.user u] m).2.next m'.next).write callee.addr
          (.func (.wrapDep (keep g.wrapParamByValue u (u.invoke .dep [] m.world).2.1)))) := by
      simp only [funSh, funCodeG, look_eq hl hf]
      refine callBoundG_eq (s := .unit) hc rfl ke ?_
      rw [keep_map g.wrapParamByValue (fun u : UFn D W E S => [MV.user u]), hw]
      rfl
    rw [call_wrapDepG, he]
    exact ⟨by rw [h1, hw], by rw [← hw]; exact (ended_world _ _ _).trans h2, by simp [Mem.write],
      Keeps.write ((hk2.ended _ _ hk.next).killRange _ _ ln) _ _ (.inr (.inl rfl))⟩

/-! ### Results -/

/-- Corresponding results: by reference or by value; if by reference, to an object made from `lo` on, that still exists if `LazyRes` says so. -/
structure ResG (byRef : Bool) (lo : Nat) (m : LMem D W E S) (r : LRes D) (q : LazyRes D) : Prop where
  left : r.value.isLeft = byRef
  changed : r.isChanged = q.isChanged
  read : r.read m = if q.live then some q.value else none
  range : ∀ a, r.value = .inl a → lo ≤ a ∧ a < m.next

/-- Reading depends only on the object referred to. -/
theorem LRes.read_congr {r : LRes D} {m m' : LMem D W E S} (h : ∀ a, r.value = .inl a → m'.alive a = m.alive a ∧ m'.get a = m.get a) :
    r.read m' = r.read m := by
  rcases hv : r.value with a | v
  · obtain ⟨h1, h2⟩ := h a hv
    simp only [LRes.read, hv, h1, h2]
  · simp only [LRes.read, hv]

theorem ResG.later {byRef : Bool} {lo lo' : Nat} {m m' : LMem D W E S} {r : LRes D} {q : LazyRes D} (h : ResG byRef lo m r q) (hlo : lo' ≤ lo)
    (hn : m.next ≤ m'.next) (hm : ∀ a, lo ≤ a → a < m.next → m'.alive a = m.alive a ∧ m'.get a = m.get a) : ResG byRef lo' m' r q where
  left := h.left
  changed := h.changed
  read := (LRes.read_congr fun a ha => hm a (h.range a ha).1 (h.range a ha).2).trans h.read
  range := fun a ha => by have := h.range a ha; omega

theorem ResG.keeps {byRef : Bool} {lo lo' : Nat} {X : Nat → Prop} {m m' : LMem D W E S} {r : LRes D} {q : LazyRes D} (h : ResG byRef lo m r q)
    (hlo : lo' ≤ lo) (hk : Keeps X m m') (hX : ∀ a, X a → a < lo) : ResG byRef lo' m' r q :=
  h.later hlo hk.next fun a h1 h2 => ⟨hk.alive a h2, hk.frame a h2 fun hx => by have := hX a hx; omega⟩

theorem ResG.kill {byRef : Bool} {lo : Nat} {m : LMem D W E S} {r : LRes D} {q : LazyRes D} (h : ResG byRef lo m r q) (a : Nat) (ha : a < lo) :
    ResG byRef lo (m.kill a) r q :=
  h.later (Nat.le_refl _) (Nat.le_refl _) fun b h1 _ => ⟨by
    show (m.alive b && !decide (b = a)) = m.alive b
    rw [decide_eq_false (by omega)]
    simp, rfl⟩

theorem ResG.killRange {byRef : Bool} {lo : Nat} {m : LMem D W E S} {r : LRes D} {q : LazyRes D} (h : ResG byRef lo m r q) (a b : Nat) (hb : b ≤ lo) :
    ResG byRef lo (m.killRange a b) r q :=
  h.later (Nat.le_refl _) (Nat.le_refl _) fun c h1 _ => ⟨by
    show (m.alive c && !(decide (a ≤ c) && decide (c < b))) = m.alive c
    rw [decide_eq_false (p := c < b) (by omega)]
    simp, rfl⟩

theorem ResG.write {byRef : Bool} {lo : Nat} {m : LMem D W E S} {r : LRes D} {q : LazyRes D} (h : ResG byRef lo m r q) (a : Nat) (x : MV D W E S)
    (ha : a < lo) : ResG byRef lo (m.write a x) r q :=
  h.later (Nat.le_refl _) (Nat.le_refl _) fun b h1 _ => ⟨rfl, by
    show (if b = a then x else m.get b) = m.get b
    rw [if_neg (by omega)]⟩

theorem ResG.low {byRef : Bool} {lo lo' : Nat} {m : LMem D W E S} {r : LRes D} {q : LazyRes D} (h : ResG byRef lo m r q) (hlo : lo' ≤ lo) :
    ResG byRef lo' m r q := ⟨h.left, h.changed, h.read, fun a ha => by have := h.range a ha; omega⟩

/-- The end of a function that returns the result of a call made in it. -/
theorem ResG.ended {byRef : Bool} {lo : Nat} {m : LMem D W E S} {r : LRes D} {q : LazyRes D} (h : ResG byRef lo m r q) (b : Bool) (lo' : Nat)
    (hlo : lo' ≤ lo) : ResG byRef lo (ended b lo' m) r (q.through (byRef && b)) where
  left := h.left
  changed := h.changed
  read := by
    rcases b with _ | _
    · rw [Bool.and_false]
      exact h.read.trans (by simp [LazyRes.through])
    · rcases hv : r.value with a | v
      · have hl := h.left
        rw [hv] at hl
        have hr := h.range a hv
        have ha : (LM.ended true lo' m).alive a = false := by
          rw [ended_alive, decide_eq_true (p := lo' ≤ a) (by omega), decide_eq_true (p := a < m.next) hr.2]
          simp
        subst hl
        simp [LRes.read, hv, ha, LazyRes.through]
      · have hl := h.left
        rw [hv] at hl
        subst hl
        have hr := h.read
        simp only [LRes.read, hv] at hr ⊢
        simpa [LazyRes.through] using hr
  range := fun a ha => by rw [ended_next]; exact h.range a ha

theorem readResultsG {byRef : Bool} {lo : Nat} {m : LMem D W E S} : ∀ {rs : List (LRes D)} {qs : List (LazyRes D)}, Rel2 (ResG byRef lo m) rs qs →
    readResults m rs = if qs.all (fun x => x.live) then some (qs.map LazyRes.value) else none
  | [], [], _ => rfl
  | r :: rs, q :: qs, h => by
    rw [readResults, h.1.read, readResultsG h.2]
    simp only [List.all_cons, List.map_cons]
    rcases q.live <;> rcases qs.all fun x => x.live <;> rfl

theorem isChangedG {byRef : Bool} {lo : Nat} {m : LMem D W E S} : ∀ {rs : List (LRes D)} {qs : List (LazyRes D)}, Rel2 (ResG byRef lo m) rs qs →
    rs.any LRes.isChanged = qs.any LazyRes.isChanged
  | [], [], _ => rfl
  | r :: rs, q :: qs, h => by
    rw [List.any_cons, List.any_cons, h.1.changed, isChangedG h.2]

/-- `return LazyResult{ *cache, changed };`, once it is decided (`live`) whether the closure, at `a`, still exists. -/
theorem coreResultG (g : Glue) (a lo : Nat) (changed : Bool) (c : Cache D) (m : LMem D W E S) (hc : m.get a = .cache c)
    (hl : m.alive a = true) (ha : a < m.next) (hlo : lo ≤ a) :
    OutRel (fun r q => ∀ M : LMem D W E S, M.next = (coreResult (E := E) g.resultByRef a changed m).2.next → M.get a = m.get a →
        M.alive a = !g.bindFrontCopies →
        (∀ b, m.next ≤ b → (coreResult (E := E) g.resultByRef a changed m).2.alive b = false → M.alive b = false) → ResG g.resultByRef lo M r q)
      (coreResult (E := E) g.resultByRef a changed m).1
      (match c.deref with | some v => .ok ⟨v, changed, g.coreLive c⟩ | none => (.ub : Out E (LazyRes D))) ∧
    (coreResult (E := E) g.resultByRef a changed m).2.world = m.world ∧ Keeps (fun _ => False) m (coreResult (E := E) g.resultByRef a changed m).2 := by
  rcases c with (_ | v) | o <;> simp only [coreResult, look_eq hl hc, Cache.deref]
  · exact ⟨trivial, trivial, Keeps.refl _ _⟩
  · refine ⟨?_, trivial, Keeps.refl _ _⟩
    intro M hn hg hal _
    rcases hb : g.resultByRef with _ | _
    · exact ⟨rfl, rfl, by simp [mkResult, LRes.read, Glue.coreLive, hb], by simp [mkResult]⟩
    · refine ⟨rfl, rfl, ?_, ?_⟩
      · rcases hcp : g.bindFrontCopies with _ | _ <;> simp [mkResult, LRes.read, Glue.coreLive, hb, hal, hg, hc, hcp]
      · intro b h
        simp only [mkResult, if_true, Sum.inl.injEq] at h
        omega
  · refine ⟨?_, rfl, ((Keeps.refl _ m).alloc _).kill _ (Nat.le_refl _)⟩
    intro M hn hg hal hd
    have hn : M.next = m.next + 1 := hn
    rcases hb : g.resultByRef with _ | _
    · exact ⟨rfl, rfl, by simp [mkResult, LRes.read, Glue.coreLive, hb], by simp [mkResult]⟩
    · refine ⟨rfl, rfl, ?_, ?_⟩
      · have := hd m.next (Nat.le_refl _) (by simp [Mem.kill])
        simp [mkResult, LRes.read, Glue.coreLive, hb, this]
      · intro b h
        simp only [mkResult, if_true, Sum.inl.injEq] at h
        omega

end Pigro.LM
