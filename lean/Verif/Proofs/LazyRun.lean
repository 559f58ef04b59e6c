import Verif.Proofs.LazyMake
import Verif.Spec.LazyMem
/-!
# Client programs at memory level do what the program does with `written byRef`
-/
namespace Pigro.LM
open Cxx
variable {D W E S : Type}

theorem OutRel.eq {α : Type} : ∀ {x y : Out E α}, OutRel (fun a b => a = b) x y → x = y
  | .ok _, .ok _, h => by rw [h]
  | .thrown _, .thrown _, h => by rw [h]
  | .ub, .ub, _ => rfl
  | .illFormed, .illFormed, _ => rfl

theorem OutRel.of_eq {α : Type} {x y : Out E α} (h : x = y) : OutRel (fun a b => a = b) x y := by
  subst h
  cases x <;> simp [OutRel]

theorem withNullptr_spec [CxxData D] (Θ : Empties D W E S) (moved : MV D W E S → MV D W E S) (byRef : Bool) (o : Obj D W E S) (ht : Typed o) (m : LMem D W E S)
    (callee : Expr LB) (hcat : callee.cat = .lv) (hlt : callee.addr < m.next) (hget : m.get callee.addr = .obj o) (hlive : m.alive callee.addr = true) :
    OutRel (ResRel byRef (withNullptr (callN (lang Θ moved) byRef (sh o)) callee m).2) (withNullptr (callN (lang Θ moved) byRef (sh o)) callee m).1
        (evalN (written byRef) o m.world).1 ∧
      (withNullptr (callN (lang Θ moved) byRef (sh o)) callee m).2.world = (evalN (written byRef) o m.world).2.2 ∧
      (evalN (written byRef) o m.world).2.1 = o ∧
      Keeps (fun _ => False) m (withNullptr (callN (lang Θ moved) byRef (sh o)) callee m).2 := by
  have ka : Keeps (fun _ => False) m (m.alloc .unit) := Keeps.alloc (Keeps.refl _ _) _
  obtain ⟨h1, h2, h3, h4⟩ := callN_spec Θ moved byRef o ht (m.alloc .unit) callee ⟨.nullptr, false, false, .xv, m.next⟩ hcat
    (by rw [alloc_next]; omega) (by rw [ka.frame _ hlt (by simp)]; exact hget) (by rw [ka.alive _ hlt]; exact hlive) (by rw [alloc_next]; simp only; omega) (by simp only; omega)
  have hw : (m.alloc (.unit : MV D W E S)).world = m.world := rfl
  rw [hw] at h1 h2 h3
  refine ⟨OutRel.imp (fun _ _ h => PreRes.kill h _) h1, h2, h3, ?_⟩
  exact (ka.trans h4 (by intro a ha h; simp only at h; omega)).kill _ (Nat.le_refl _)

theorem callZ_spec [CxxData D] (Θ : Empties D W E S) (moved : MV D W E S → MV D W E S) (byRef : Bool) : ∀ (o : Obj D W E S), Typed o → ∀ (m : LMem D W E S)
    (callee : Expr LB), callee.cat = .lv → callee.addr < m.next → m.get callee.addr = .obj o → m.alive callee.addr = true →
    (callZ (lang Θ moved) byRef (sh o) callee [] m).1 = (call0 (written byRef) o m.world).1 ∧
      (callZ (lang Θ moved) byRef (sh o) callee [] m).2.world = (call0 (written byRef) o m.world).2.2 ∧
      (call0 (written byRef) o m.world).2.1 = o ∧ Keeps (fun _ => False) m (callZ (lang Θ moved) byRef (sh o) callee [] m).2
  | .lazyValue v c, _, m, callee, _, _, _, _ => ⟨rfl, rfl, rfl, Keeps.refl _ _⟩
  | .core f c ds, _, m, callee, _, _, _, _ => ⟨rfl, rfl, rfl, Keeps.refl _ _⟩
  | .unwrapped inner, ht, m, callee, hcat, hlt, hget, hlive => by
    obtain ⟨h1, h2, h3, h4⟩ := withNullptr_spec Θ moved byRef (.unwrapped inner) ht m callee hcat hlt hget hlive
    rcases hq : evalN (written byRef) (.unwrapped inner) m.world with ⟨q, o', env'⟩
    rw [hq] at h1 h2 h3
    simp only [sh] at h1 h2 h3 h4 ⊢
    rcases hr : withNullptr (callN (lang Θ moved) byRef (.unwrapped (sh inner))) callee m with ⟨r, m'⟩
    rw [hr] at h1 h2 h4
    simp only at h1 h2 h3 h4
    simp only [callZ, call0, hr, hq]
    rcases r with x | e | _ | _ <;> rcases q with y | e' | _ | _ <;> simp only [OutRel] at h1
    · have hread := ResRel.read h1
      simp only [hread]
      cases hl : y.live
      · exact ⟨rfl, h2, h3, h4⟩
      · exact ⟨rfl, h2, h3, h4⟩
    · subst h1
      exact ⟨rfl, h2, h3, h4⟩
    · exact ⟨rfl, h2, h3, h4⟩
    · exact ⟨rfl, h2, h3, h4⟩
  | .unregularized inner, ht, m, callee, hcat, hlt, hget, hlive => by
    have ih := callZ_spec Θ moved byRef inner ht
    rcases hq : call0 (written byRef) inner m.world with ⟨q, inner', env'⟩
    have hb : (written byRef).facadeParamByValue = true := rfl
    obtain ⟨h1, h2, h3⟩ := unregularizedCode_spec Θ moved inner (callZ (lang Θ moved) byRef (sh inner)) callee [] m hget hlive (by simp) (by simp [Apart])
      (fun _ a b => a = b) (fun _ _ _ _ _ h => h) (fun _ _ _ _ _ h => h) q env' (by
        intro m' p ps hw hp hpl hpg hpa hlen hps
        obtain rfl := List.eq_nil_of_length_eq_zero hlen
        obtain ⟨g1, g2, g3, g4⟩ := ih m' p hp hpl hpg hpa
        rw [hw, hq] at g1 g2
        exact ⟨OutRel.of_eq g1, g2, g4.mono (by simp)⟩)
    have h1 := OutRel.eq h1
    simp only [sh, callZ, look_eq hlive hget, call0, hq, hb, keep_true, voidResult]
    exact ⟨by rw [h1]; rfl, h2, trivial, h3.mono (by simp)⟩

/-! ### Programs -/

/-- A variable: its object in memory and the object of `Model/Lazy.lean`. -/
def VarRel (m : LMem D W E S) (a : Nat) (o : Obj D W E S) : Prop := a < m.next ∧ m.get a = .obj o ∧ m.alive a = true ∧ Typed o

/-- Corresponding states. -/
structure Sim (t : MState D W E S) (s : State D W E S) : Prop where
  vars : Rel2 (VarRel t.mem) t.vars s.vars
  env : t.mem.world = s.env

theorem vars_keeps {m m' : LMem D W E S} (hk : Keeps (fun _ => False) m m') : ∀ {as : List Nat} {os : List (Obj D W E S)},
    Rel2 (VarRel m) as os → Rel2 (VarRel m') as os
  | [], [], _ => trivial
  | a :: as, o :: os, h => by
    have := hk.next
    have h1 := h.1.1
    refine ⟨⟨by omega, ?_, ?_, h.1.2.2.2⟩, vars_keeps hk h.2⟩
    · rw [hk.frame a h1 (by simp)]; exact h.1.2.1
    · rw [hk.alive a h1]; exact h.1.2.2.1

theorem rel2_get {α β : Type} {P : α → β → Prop} : ∀ {xs : List α} {ys : List β}, Rel2 P xs ys → ∀ i : Nat,
    (xs[i]? = none ∧ ys[i]? = none) ∨ ∃ x y, xs[i]? = some x ∧ ys[i]? = some y ∧ P x y
  | [], [], _, i => .inl ⟨by simp, by simp⟩
  | x :: xs, y :: ys, h, 0 => .inr ⟨x, y, rfl, rfl, h.1⟩
  | x :: xs, y :: ys, h, i + 1 => by
    rcases rel2_get h.2 i with h | h
    · exact .inl (by simpa using h)
    · exact .inr (by simpa using h)

theorem rel2_snoc {α β : Type} {P : α → β → Prop} {x : α} {y : β} (hxy : P x y) : ∀ {xs : List α} {ys : List β}, Rel2 P xs ys →
    Rel2 P (xs ++ [x]) (ys ++ [y])
  | [], [], _ => ⟨hxy, trivial⟩
  | _ :: _, _ :: _, h => ⟨h.1, rel2_snoc hxy h.2⟩

theorem set_get_self {α : Type} (xs : List α) (i : Nat) (x : α) (h : xs[i]? = some x) : xs.set i x = xs := by
  obtain ⟨hi, rfl⟩ := List.getElem?_eq_some_iff.1 h
  exact List.set_getElem_self hi

/-- All lazy objects among the arguments are as constructed. -/
def ArgsTyped (ds : List (DepArg D W E S)) : Prop := ∀ o, DepArg.lazyObj o ∈ ds → Typed o

/-- What the arguments of `pigro::lazy` are. -/
structure Placed (Θ : Empties D W E S) (N : Nat) (es : List (Expr LB)) (ds : List (DepArg D W E S)) (m m' : LMem D W E S) : Prop where
  den : Rel2 (Den Θ m') es (ds.map argVal)
  lv : ∀ e ∈ es, e.cat = .lv → e.addr < N
  xv : ∀ e ∈ es, e.cat = .xv → m.next ≤ e.addr
  apart : Apart es
  typed : ArgsTyped ds
  world : m'.world = m.world
  keeps : Keeps (fun _ => False) m m'

theorem placeArgs_spec (Θ : Empties D W E S) (moved : MV D W E S → MV D W E S) (vars : List Nat) (os : List (Obj D W E S)) (N : Nat) : ∀ (as : List (ArgRef D W E S)) (m : LMem D W E S), N ≤ m.next →
    Rel2 (fun a o => a < N ∧ VarRel m a o) vars os →
    match resolveAll os as with
    | none => placeArgs (lang Θ moved) vars as m = none
    | some ds => ∃ es m', placeArgs (lang Θ moved) vars as m = some (es, m') ∧ Placed Θ N es ds m m'
  | [], m, _, _ => ⟨[], m, rfl, trivial, by simp, by simp, by simp [Apart], by simp [ArgsTyped], rfl, Keeps.refl _ _⟩
  | a :: as, m, hN, hv => by
    -- one argument
    have one : (a.resolve os = none ∧ placeArgs (lang Θ moved) vars (a :: as) m = none) ∨
        ∃ d e m1, a.resolve os = some d ∧ placeArgs (lang Θ moved) vars (a :: as) m = (match placeArgs (lang Θ moved) vars as m1 with
          | none => none
          | some (es, m2) => some (e :: es, m2)) ∧ Den Θ m1 e (argVal d) ∧ (e.cat = .lv → e.addr < N) ∧ (e.cat = .xv → m.next ≤ e.addr) ∧
          (∀ o, d = .lazyObj o → Typed o) ∧ m1.world = m.world ∧ Keeps (fun _ => False) m m1 := by
      rcases a with v | u | i
      · exact .inr ⟨.value v, ⟨Θ.base (.val v), false, false, .xv, m.next⟩, m.alloc (.val v), rfl, rfl, ⟨by rw [alloc_next]; simp only; omega, rfl, alloc_get _ _⟩,
          by simp, by simp, by simp, rfl, Keeps.alloc (Keeps.refl _ _) _⟩
      · exact .inr ⟨.function u, ⟨Θ.base (.user u), false, false, .xv, m.next⟩, m.alloc (.user u), rfl, rfl, ⟨by rw [alloc_next]; simp only; omega, rfl, alloc_get _ _⟩,
          by simp, by simp, by simp, rfl, Keeps.alloc (Keeps.refl _ _) _⟩
      · rcases rel2_get hv i with ⟨h1, h2⟩ | ⟨x, o, h1, h2, h3, h4⟩
        · exact .inl ⟨by simp [ArgRef.resolve, h2], by simp [placeArgs, h1]⟩
        · exact .inr ⟨.lazyObj o, ⟨Θ.base (m.get x), false, false, .lv, x⟩, m, by simp [ArgRef.resolve, h2],
            by simp only [placeArgs, h1, Option.map_some]; all_goals rfl, ⟨h4.1, by rw [h4.2.1]; rfl, h4.2.1⟩,
            fun _ => h3, by simp, by rintro o' h; cases h; exact h4.2.2.2, rfl, Keeps.refl _ _⟩
    rcases one with ⟨h1, h2⟩ | ⟨d, e, m1, h1, h2, h3, h4, h5, h6, h7, h8⟩
    · simp only [resolveAll, h1]
      exact h2
    · have n1 := h8.next
      have ih := placeArgs_spec Θ moved vars os N as m1 (by omega) (by
        have hk : ∀ {xs : List Nat} {ys : List (Obj D W E S)}, Rel2 (fun a o => a < N ∧ VarRel m a o) xs ys →
            Rel2 (fun a o => a < N ∧ VarRel m1 a o) xs ys := by
          intro xs ys h
          exact h.imp fun a o ⟨q1, q2⟩ => ⟨q1, (vars_keeps h8 (as := [a]) (os := [o]) ⟨q2, trivial⟩).1⟩
        exact hk hv)
      rcases hr : resolveAll os as with _ | ds
      · simp only [hr] at ih
        simp only [resolveAll, h1, hr, h2, ih]
      · simp only [hr] at ih
        obtain ⟨es, m2, i1, i2⟩ := ih
        simp only [resolveAll, h1, hr, h2, i1]
        refine ⟨_, _, rfl, ⟨h3.keeps i2.keeps (by simp), i2.den⟩, ?_, ?_, ?_, ?_, by rw [i2.world, h7], h8.trans i2.keeps (by simp)⟩
        · intro x hx
          rcases List.mem_cons.1 hx with rfl | hx
          · exact h4
          · exact i2.lv x hx
        · intro x hx hc
          rcases List.mem_cons.1 hx with rfl | hx
          · exact h5 hc
          · have := i2.xv x hx hc
            omega
        · refine List.pairwise_cons.2 ⟨?_, i2.apart⟩
          intro x hx hc
          have hlt := h3.1
          rcases hx1 : x.cat with _ | _
          · have := i2.lv x hx hx1
            rcases hc with hc | hc
            · have := h5 hc
              omega
            · rw [hx1] at hc
              simp at hc
          · have := i2.xv x hx hx1
            omega
        · intro o ho
          rcases List.mem_cons.1 ho with h | h
          · exact h6 o h.symm
          · exact i2.typed o h

theorem typed_pigroLazy [CxxData D] (u : UFn D W E S) (ds : List (DepArg D W E S)) (o : Obj D W E S) (ht : ArgsTyped ds) (h : pigroLazy u ds = some o) :
    Typed o := by
  have key : ∀ (ds : List (DepArg D W E S)) os, ArgsTyped ds → ensureAll ds = some os → TypedL os := by
    intro ds
    induction ds with
    | nil => intro os _ h; simp [ensureAll] at h; subst h; trivial
    | cons d ds ih =>
      intro os ht h
      rcases h1 : ensureLazy d with _ | x
      · simp [ensureAll, h1] at h
      rcases h2 : ensureAll ds with _ | xs
      · simp [ensureAll, h1, h2] at h
      simp only [ensureAll, h1, h2, Option.some.injEq] at h
      subst h
      refine ⟨?_, ih xs (fun o ho => ht o (by simp [ho])) h2⟩
      rcases d with v | u | o'
      · have : ensureLazy (.value v : DepArg D W E S) = some (.lazyValue v false) := rfl
        rw [this] at h1
        cases h1
        trivial
      · have : ensureLazy (.function u : DepArg D W E S) = if u.ret = .void then none
            else some (detailLazy (.wrapDep u) [.lazyValue (.data CxxData.zero) true]) := rfl
        rw [this] at h1
        split at h1
        · simp at h1
        · cases h1
          exact ⟨⟨trivial, trivial⟩, fun _ _ => ⟨_, rfl⟩⟩
      · have hx : x = o' := by
          simp only [ensureLazy] at h1
          split at h1 <;> simp_all
        subst hx
        exact ht x (by simp)
  rcases h1 : ensureAll ds with _ | os
  · simp [pigroLazy, h1] at h
  · simp only [pigroLazy, h1, Option.some.injEq] at h
    subst h
    exact ⟨key ds os ht h1, fun u hu => by simp at hu⟩

theorem stepM_spec [CxxData D] (Θ : Empties D W E S) (moved : MV D W E S → MV D W E S) (byRef : Bool) (t : MState D W E S) (s : State D W E S) (hs : Sim t s)
    (op : Op D W E S) : (stepM (lang Θ moved) byRef t op).1 = seen (step (written byRef) s op).1 ∧
      Sim (stepM (lang Θ moved) byRef t op).2 (step (written byRef) s op).2 ∧ Keeps (fun _ => False) t.mem (stepM (lang Θ moved) byRef t op).2.mem := by
  rcases op with ⟨f, deps⟩ | i | i | i | h
  · have ka : Keeps (fun _ => False) t.mem (t.mem.alloc (.user f)) := Keeps.alloc (Keeps.refl _ _) _
    have na : (t.mem.alloc (.user f)).next = t.mem.next + 1 := rfl
    have hv : Rel2 (fun a o => a < t.mem.next ∧ VarRel (t.mem.alloc (.user f)) a o) t.vars s.vars :=
      hs.vars.imp fun a o h => ⟨h.1, (vars_keeps ka (as := [a]) (os := [o]) ⟨h, trivial⟩).1⟩
    have hp := placeArgs_spec Θ moved t.vars s.vars t.mem.next deps (t.mem.alloc (.user f)) (by omega) hv
    rcases hr : resolveAll s.vars deps with _ | ds
    · simp only [hr] at hp
      simp only [stepM, step, hr, hp, Option.bind_none]
      exact ⟨rfl, hs, Keeps.refl _ _⟩
    · simp only [hr] at hp
      obtain ⟨es, m1, h1, pl⟩ := hp
      have hf : Den Θ m1 ⟨(lang Θ moved).base (.user f), false, false, .xv, t.mem.next⟩ (.user f : MV D W E S) :=
        Den.keeps (m := t.mem.alloc (.user f)) ⟨by rw [na]; simp only; omega, rfl, alloc_get _ _⟩ pl.keeps (by simp)
      have hl := pigroLazyM_spec Θ moved ⟨(lang Θ moved).base (.user f), false, false, .xv, t.mem.next⟩ es f ds m1 hf pl.den (by
        refine List.pairwise_cons.2 ⟨?_, pl.apart⟩
        intro x hx _
        rcases hc : x.cat with _ | _
        · have := pl.lv x hx hc
          simp only
          omega
        · have := pl.xv x hx hc
          simp only
          omega)
      rcases hm : pigroLazy f ds with _ | o
      · simp only [hm] at hl
        simp only [stepM, step, hr, h1, hl, Option.bind_some, hm]
        exact ⟨rfl, hs, Keeps.refl _ _⟩
      · simp only [hm] at hl
        obtain ⟨a, m2, h2, mk⟩ := hl
        simp only [stepM, step, hr, h1, h2, Option.bind_some, hm]
        have k1 : Keeps (fun _ => False) t.mem m1 := ka.trans pl.keeps (by simp)
        have k2 : Keeps (fun _ => False) t.mem m2 := k1.trans mk.keeps (by
          rintro b hb ⟨e, he, h⟩
          rcases List.mem_cons.1 he with rfl | he
          · have := h.1
            simp only at this
            omega
          · have h3 := pl.xv e he h.2.1
            have := h.1
            omega)
        have n1 := k1.next
        have hnew := mk.new
        have hvar : VarRel (m2.killRange t.mem.next m1.next) a o := by
          refine ⟨mk.lt, mk.get, ?_, typed_pigroLazy f ds o pl.typed hm⟩
          simp only [Mem.killRange, mk.alive]
          rw [decide_eq_false (p := a < _) (by omega)]
          simp
        refine ⟨rfl, ⟨rel2_snoc hvar (vars_keeps (k2.killRange _ _ (Nat.le_refl _)) hs.vars), ?_⟩, k2.killRange _ _ (Nat.le_refl _)⟩
        show m2.world = _
        rw [mk.world, pl.world]
        exact hs.env
  · rcases rel2_get hs.vars i with ⟨h1, h2⟩ | ⟨a, o, h1, h2, h3⟩
    · simp only [stepM, step, h1, h2]
      exact ⟨rfl, hs, Keeps.refl _ _⟩
    · simp only [stepM, step, h1, h2]
      obtain ⟨g, n, v⟩ := initFrom_grows (lang Θ moved).toLang ⟨(lang Θ moved).base (t.mem.get a), false, false, .lv, a⟩ t.mem h3.1
      have hk : Keeps (fun _ => False) t.mem ((lang Θ moved).initFrom ⟨(lang Θ moved).base (t.mem.get a), false, false, .lv, a⟩ t.mem) :=
        (Keeps.ofGrows g).mono fun x _ h => by
          have := h.2.1
          simp at this
      simp only [decayCopy]
      have hvar : VarRel ((lang Θ moved).initFrom ⟨(lang Θ moved).base (t.mem.get a), false, false, .lv, a⟩ t.mem) t.mem.next o :=
        ⟨by omega, by rw [v]; exact h3.2.1, g.aliveNew _ (Nat.le_refl _) (by omega), h3.2.2.2⟩
      refine ⟨rfl, ⟨rel2_snoc hvar (vars_keeps hk hs.vars), ?_⟩, hk⟩
      show ((lang Θ moved).initFrom _ t.mem).world = _
      rw [g.world]
      exact hs.env
  · rcases rel2_get hs.vars i with ⟨h1, h2⟩ | ⟨a, o, h1, h2, h3⟩
    · simp only [stepM, step, h1, h2]
      exact ⟨rfl, hs, Keeps.refl _ _⟩
    · simp only [stepM, step, h1, h2, h3.2.1]
      obtain ⟨g1, g2, g3, g4⟩ := callZ_spec Θ moved byRef o h3.2.2.2 t.mem ⟨(lang Θ moved).base (.obj o), false, false, .lv, a⟩ rfl h3.1 h3.2.1 h3.2.2.1
      rw [hs.env] at g1 g2 g3
      rcases hq : call0 (written byRef) o s.env with ⟨r, o', env'⟩
      rw [hq] at g1 g2 g3
      simp only at g1 g2 g3
      subst g3
      simp only [set_get_self _ _ _ h2]
      exact ⟨by rw [g1]; rfl, ⟨vars_keeps g4 hs.vars, g2⟩, g4⟩
  · rcases rel2_get hs.vars i with ⟨h1, h2⟩ | ⟨a, o, h1, h2, h3⟩
    · simp only [stepM, step, h1, h2]
      exact ⟨rfl, hs, Keeps.refl _ _⟩
    · simp only [stepM, step, h1, h2, h3.2.1]
      obtain ⟨g1, g2, g3, g4⟩ := withNullptr_spec Θ moved byRef o h3.2.2.2 t.mem ⟨(lang Θ moved).base (.obj o), false, false, .lv, a⟩ rfl h3.1 h3.2.1 h3.2.2.1
      rw [hs.env] at g1 g2 g3
      rcases hq : evalN (written byRef) o s.env with ⟨r, o', env'⟩
      rw [hq] at g1 g2 g3
      simp only at g1 g2 g3
      subst g3
      simp only [set_get_self _ _ _ h2]
      refine ⟨?_, ⟨vars_keeps g4 hs.vars, g2⟩, g4⟩
      have := OutRel.eq (OutRel.map (Q := fun a b => a = b)
        (f := fun x => (LRes.read (withNullptr (callN (lang Θ moved) byRef (sh o')) ⟨(lang Θ moved).base (.obj o'), false, false, .lv, a⟩ t.mem).2 x, x.isChanged))
        (g := fun r => (if r.live then some r.value else none, r.isChanged)) (fun x y h => by rw [ResRel.read h, h.1]) g1)
      simp only [seen]
      rw [this]
  · exact ⟨rfl, ⟨vars_keeps (Keeps.setWorld (Keeps.refl _ _) _) hs.vars, by simp only [stepM, step, hs.env]⟩, Keeps.setWorld (Keeps.refl _ _) _⟩

theorem runM_spec [CxxData D] (Θ : Empties D W E S) (moved : MV D W E S → MV D W E S) (byRef : Bool) : ∀ (ops : List (Op D W E S)) (t : MState D W E S) (s : State D W E S),
    Sim t s → (runM (lang Θ moved) byRef t ops).1 = (run (written byRef) s ops).1.map seen ∧
      Sim (runM (lang Θ moved) byRef t ops).2 (run (written byRef) s ops).2
  | [], _, _, hs => ⟨rfl, hs⟩
  | op :: ops, t, s, hs => by
    obtain ⟨h1, h2, -⟩ := stepM_spec Θ moved byRef t s hs op
    obtain ⟨h3, h4⟩ := runM_spec Θ moved byRef ops _ _ h2
    simp only [runM, run, List.map_cons, h1, h3]
    exact ⟨trivial, h4⟩

theorem sim_init (w : W) : Sim (MState.init w : MState D W E S) (State.init w) := ⟨trivial, rfl⟩

end Pigro.LM
