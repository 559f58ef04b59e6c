import Verif.Proofs.Refactor
import Verif.Spec.RefactorSeen
/-!
# Proof: what shows no difference can be replaced (C97), dangling results being of no interest
-/
namespace Pigro.Rfc.Shown
open LM (seen)
variable {D W E S : Type} [CxxData D]

/-- What is to be seen of a result. -/
def sight (r : LazyRes D) : Option (Val D) × Bool := (if r.live then some r.value else none, r.isChanged)

/-- The same is to be seen of both. -/
def Agree {α β : Type} (φ : α → β) (x y : Out E α) : Prop := x.map φ = y.map φ

omit [CxxData D] in
theorem Agree.cons {r r' : LazyRes D} {x y : Out E (List (LazyRes D))} (h : Agree (List.map sight) x y) (hr : sight r = sight r') :
    Agree (List.map sight) (x.map (r :: ·)) (y.map (r' :: ·)) := by
  cases x <;> cases y <;> simp_all [Agree, Out.map]

omit [CxxData D] in
theorem sight_any : ∀ (rs rs' : List (LazyRes D)), rs.map sight = rs'.map sight → rs.any LazyRes.isChanged = rs'.any LazyRes.isChanged
  | [], [], _ => rfl
  | [], _ :: _, h => by simp at h
  | _ :: _, [], h => by simp at h
  | r :: rs, r' :: rs', h => by
    simp only [List.map_cons, List.cons.injEq] at h
    have h1 : r.isChanged = r'.isChanged := congrArg Prod.snd h.1
    simp only [List.any_cons, h1, sight_any rs rs' h.2]

omit [CxxData D] in
theorem sight_values : ∀ (rs rs' : List (LazyRes D)), rs.map sight = rs'.map sight →
    rs.all (·.live) = rs'.all (·.live) ∧ (rs.all (·.live) = true → rs.map LazyRes.value = rs'.map LazyRes.value)
  | [], [], _ => ⟨rfl, fun _ => rfl⟩
  | [], _ :: _, h => by simp at h
  | _ :: _, [], h => by simp at h
  | r :: rs, r' :: rs', h => by
    simp only [List.map_cons, List.cons.injEq] at h
    obtain ⟨h1, h2⟩ := sight_values rs rs' h.2
    have h3 : (if r.live then some r.value else none) = if r'.live then some r'.value else none := congrArg Prod.fst h.1
    rcases r with ⟨v, c, l⟩
    rcases r' with ⟨v', c', l'⟩
    cases l <;> cases l' <;> simp at h3
    · exact ⟨by simp, by simp⟩
    · subst h3
      refine ⟨by simp only [List.all_cons, h1], fun h4 => ?_⟩
      simp only [List.all_cons, Bool.true_and] at h4
      simp only [List.map_cons, h2 h4]

theorem tail_sight (g : Glue) (f : Fun D W E S) (c : Cache D) (rs rs' : List (LazyRes D)) (env : Env D W S) (h : rs.map sight = rs'.map sight) :
    coreTail g f c rs env = coreTail g f c rs' env := by
  have h1 : any LazyRes.isChanged rs = any LazyRes.isChanged rs' := by rw [any_eq, any_eq, sight_any rs rs' h]
  have h2 : readValues rs = readValues rs' := by
    obtain ⟨k1, k2⟩ := sight_values rs rs' h
    simp only [readValues, transform_eq]
    rw [← k1]
    split
    · rename_i hl; rw [k2 hl]
    · rfl
  unfold coreTail
  rw [h1, h2]

/-- No tests show a difference between the two: what dangling results refer to is not seen. -/
def Alike (g : Glue) (care : Ev D S → Bool) (a b : Obj D W E S) : Prop :=
  ∀ ts w, (tests g a ⟨w, []⟩ ts).1.map seen = (tests g b ⟨w, []⟩ ts).1.map seen ∧ Near care (tests g a ⟨w, []⟩ ts).2.2 (tests g b ⟨w, []⟩ ts).2.2

/-- Tests may start anywhere. -/
theorem Alike.near {g : Glue} {care : Ev D S → Bool} {a b : Obj D W E S} (h : Alike g care a b) (ha : IsLzy a) (hb : IsLzy b) {x y : Env D W S} (hn : Near care x y) (ts : List (Test W)) :
    (tests g a x ts).1.map seen = (tests g b y ts).1.map seen ∧ Near care (tests g a x ts).2.2 (tests g b y ts).2.2 := by
  rcases x with ⟨w, l⟩
  rcases y with ⟨w', l'⟩
  obtain ⟨rfl, hl⟩ := hn
  rw [tests_log g ts ha w l, tests_log g ts hb w l']
  obtain ⟨h1, h2, h3⟩ := h ts w
  exact ⟨h1, h2, by simp only at hl ⊢; simp [hl, h3]⟩

/-- ... and go on. -/
theorem Alike.step {g : Glue} {care : Ev D S → Bool} {a b : Obj D W E S} (h : Alike g care a b) (ha : IsLzy a) (hb : IsLzy b) {x y : Env D W S} (hn : Near care x y) (t : Test W) :
    seen (test g a x t).1 = seen (test g b y t).1 ∧ Alike g care (test g a x t).2.1 (test g b y t).2.1 ∧ Near care (test g a x t).2.2 (test g b y t).2.2 := by
  have h0 := h.near ha hb hn [t]
  simp only [tests, List.map_cons, List.map_nil, List.cons.injEq, and_true] at h0
  refine ⟨h0.1, fun ts w => ?_, h0.2⟩
  have h1 := h.near ha hb hn (t :: .poke (fun _ => w) :: ts)
  simp only [tests, test_poke, List.map_cons, List.cons.injEq] at h1
  obtain ⟨⟨_, _, h1⟩, h2⟩ := h1
  rw [tests_log g ts (test_isLzy g ha x t), tests_log g ts (test_isLzy g hb y t)] at h1 h2
  refine ⟨h1, h2.1, ?_⟩
  have h3 := h2.2
  simp only [List.filter_append, h0.2.2] at h3
  exact List.append_cancel_left h3

mutual
/-- The two differ at most in lazy functions that cannot be told apart. -/
inductive Cong (g : Glue) (care : Ev D S → Bool) : Obj D W E S → Obj D W E S → Prop where
  | alike {a b : Obj D W E S} : Alike g care a b → IsLzy a → IsLzy b → Cong g care a b
  | same (a : Obj D W E S) : Cong g care a a
  | node (f : Fun D W E S) (cache : Cache D) {ds es : List (Obj D W E S)} : CongL g care ds es → Cong g care (lzy f cache ds) (lzy f cache es)
/-- ... all of them. -/
inductive CongL (g : Glue) (care : Ev D S → Bool) : List (Obj D W E S) → List (Obj D W E S) → Prop where
  | nil : CongL g care [] []
  | cons {a b : Obj D W E S} {as bs : List (Obj D W E S)} : Cong g care a b → CongL g care as bs → CongL g care (a :: as) (b :: bs)
end

/-- The core of the two. -/
theorem core_cong (g : Glue) (care : Ev D S → Bool) (f : Fun D W E S) (cache : Cache D) {ds es : List (Obj D W E S)} {x y : Env D W S} (h0 : CongL g care ds es)
    (h : Agree (List.map sight) (evalDeps g ds x).1 (evalDeps g es y).1 ∧ CongL g care (evalDeps g ds x).2.1 (evalDeps g es y).2.1 ∧ Near care (evalDeps g ds x).2.2 (evalDeps g es y).2.2) :
    (evalN g (.core f cache ds) x).1 = (evalN g (.core f cache es) y).1 ∧
    (∃ f' cache' ds' es', (evalN g (.core f cache ds) x).2.1 = .core f' cache' ds' ∧ (evalN g (.core f cache es) y).2.1 = .core f' cache' es' ∧ CongL g care ds' es') ∧
    Near care (evalN g (.core f cache ds) x).2.2 (evalN g (.core f cache es) y).2.2 := by
  rcases h1 : evalDeps g ds x with ⟨o, ds', x'⟩
  rcases h2 : evalDeps g es y with ⟨o', es', y'⟩
  rw [h1, h2] at h
  obtain ⟨ha, hd, hn⟩ := h
  have hk : CongL g care (keep g.coreParamsByValue ds ds') (keep g.coreParamsByValue es es') := keep_both _ h0 hd
  cases o with
  | ok rs =>
    cases o' with
    | ok rs' =>
      rw [evalN_core_ok g f cache ds x h1, evalN_core_ok g f cache es y h2]
      simp only [Agree, Out.map, Out.ok.injEq] at ha
      replace hn : Near care x' y' := hn
      obtain ⟨e1, e2, e3, e4⟩ := coreTail_near hn g f cache rs
      rw [tail_sight g f cache rs rs' y' ha] at e1 e2 e3 e4
      refine ⟨e1, ⟨_, _, _, _, rfl, by simp only [e2, e3], hk⟩, e4⟩
    | _ => simp [Agree, Out.map] at ha
  | thrown e =>
    cases o' with
    | thrown e' =>
      simp only [Agree, Out.map, Out.thrown.injEq] at ha
      subst ha
      rw [evalN_core_fail g f cache ds x h1 rfl, evalN_core_fail g f cache es y h2 rfl]
      exact ⟨rfl, ⟨_, _, _, _, rfl, rfl, hk⟩, hn⟩
    | _ => simp [Agree, Out.map] at ha
  | ub =>
    cases o' with
    | ub =>
      rw [evalN_core_fail g f cache ds x h1 rfl, evalN_core_fail g f cache es y h2 rfl]
      exact ⟨rfl, ⟨_, _, _, _, rfl, rfl, hk⟩, hn⟩
    | _ => simp [Agree, Out.map] at ha
  | illFormed =>
    cases o' with
    | illFormed =>
      rw [evalN_core_fail g f cache ds x h1 rfl, evalN_core_fail g f cache es y h2 rfl]
      exact ⟨rfl, ⟨_, _, _, _, rfl, rfl, hk⟩, hn⟩
    | _ => simp [Agree, Out.map] at ha

mutual
theorem evalN_cong (g : Glue) (care : Ev D S → Bool) {a b : Obj D W E S} {x y : Env D W S} (h : Cong g care a b) (hn : Near care x y) :
    Agree sight (evalN g a x).1 (evalN g b y).1 ∧ Cong g care (evalN g a x).2.1 (evalN g b y).2.1 ∧ Near care (evalN g a x).2.2 (evalN g b y).2.2 := by
  match h with
  | .alike h ha hb =>
    obtain ⟨h1, h2, h3⟩ := h.step ha hb hn .poll
    simp only [test, seen] at h1 h2 h3
    injection h1 with h1
    exact ⟨h1, .alike h2 (evalN_isLzy g ha x) (evalN_isLzy g hb y), h3⟩
  | .same a =>
    obtain ⟨h1, h2, h3⟩ := near_log hn g a
    exact ⟨h1 ▸ rfl, h2 ▸ .same _, h3⟩
  | .node (ds := ds) (es := es) f cache hd =>
    obtain ⟨h1, ⟨f', cache', ds', es', h2, h3, h4⟩, h5⟩ := core_cong g care f cache hd (evalDeps_cong g care hd hn)
    rw [evalN_facade, evalN_facade, h1, h2, h3, keep_core, keep_core]
    exact ⟨rfl, .node _ _ (keep_both _ hd h4), h5⟩
theorem evalDeps_cong (g : Glue) (care : Ev D S → Bool) {ds es : List (Obj D W E S)} {x y : Env D W S} (h : CongL g care ds es) (hn : Near care x y) :
    Agree (List.map sight) (evalDeps g ds x).1 (evalDeps g es y).1 ∧ CongL g care (evalDeps g ds x).2.1 (evalDeps g es y).2.1 ∧ Near care (evalDeps g ds x).2.2 (evalDeps g es y).2.2 := by
  match h with
  | .nil => exact ⟨by simp [evalDeps, Agree], by simpa [evalDeps] using CongL.nil, by simpa [evalDeps] using hn⟩
  | .cons (a := a) (b := b) (as := as) (bs := bs) h hs =>
    obtain ⟨h1, h2, h3⟩ := evalN_cong g care h hn
    rcases e1 : evalN g a x with ⟨o, a', x'⟩
    rcases e2 : evalN g b y with ⟨o', b', y'⟩
    rw [e1, e2] at h1 h2 h3
    replace h1 : Agree sight o o' := h1
    cases o with
    | ok r =>
      cases o' with
      | ok r' =>
        obtain ⟨k1, k2, k3⟩ := evalDeps_cong g care hs h3
        simp only [evalDeps, e1, e2]
        refine ⟨?_, .cons h2 k2, k3⟩
        simp only [Agree, Out.map, Out.ok.injEq] at h1
        exact k1.cons h1
      | _ => simp [Agree, Out.map] at h1
    | thrown e =>
      cases o' with
      | thrown e' => simp only [evalDeps, e1, e2]; exact ⟨by simpa [Agree, Out.map] using h1, .cons h2 hs, h3⟩
      | _ => simp [Agree, Out.map] at h1
    | ub =>
      cases o' with
      | ub => simp only [evalDeps, e1, e2]; exact ⟨rfl, .cons h2 hs, h3⟩
      | _ => simp [Agree, Out.map] at h1
    | illFormed =>
      cases o' with
      | illFormed => simp only [evalDeps, e1, e2]; exact ⟨rfl, .cons h2 hs, h3⟩
      | _ => simp [Agree, Out.map] at h1
end

theorem call0_cong (g : Glue) (care : Ev D S → Bool) {a b : Obj D W E S} {x y : Env D W S} (h : Cong g care a b) (ha : IsLzy a) (hn : Near care x y) :
    (call0 g a x).1 = (call0 g b y).1 ∧ Cong g care (call0 g a x).2.1 (call0 g b y).2.1 ∧ Near care (call0 g a x).2.2 (call0 g b y).2.2 := by
  cases h with
  | alike h ha hb =>
    obtain ⟨h1, h2, h3⟩ := h.step ha hb hn .call
    simp only [test, seen] at h1 h2 h3
    injection h1 with h1
    exact ⟨h1, .alike h2 (call0_isLzy g ha x) (call0_isLzy g hb y), h3⟩
  | same a =>
    rcases x with ⟨w, l⟩
    rcases y with ⟨w', l'⟩
    obtain ⟨rfl, hl⟩ := hn
    rw [call0_log' g ha w l, call0_log' g ha w l']
    exact ⟨rfl, .same _, rfl, by simp only at hl ⊢; simp [hl]⟩
  | node f cache hd =>
    rename_i ds es
    obtain ⟨h1, ⟨f', cache', ds', es', h2, h3, h4⟩, h5⟩ := core_cong g care f cache hd (evalDeps_cong g care hd hn)
    rw [call0_facade, call0_facade, h1, h2, h3, keep_core, keep_core]
    exact ⟨rfl, .node _ _ (keep_both _ hd h4), h5⟩

theorem Cong.isLzy {g : Glue} {care : Ev D S → Bool} {a b : Obj D W E S} (h : Cong g care a b) (ha : IsLzy a) : IsLzy b := by
  cases h with
  | alike _ _ hb => exact hb
  | same _ => exact ha
  | node f cache _ => exact ⟨_, _, _, rfl⟩

/-! ### Programs -/

/-- Variables one by one. -/
def Vars (g : Glue) (care : Ev D S → Bool) (as bs : List (Obj D W E S)) : Prop := CongL g care as bs ∧ ∀ a ∈ as, IsLzy a

theorem CongL.length {g : Glue} {care : Ev D S → Bool} : ∀ {as bs : List (Obj D W E S)}, CongL g care as bs → as.length = bs.length
  | _, _, .nil => rfl
  | _, _, .cons _ h => by simp [CongL.length h]

theorem CongL.get {g : Glue} {care : Ev D S → Bool} : ∀ {as bs : List (Obj D W E S)} (_ : CongL g care as bs) (i : Nat),
    (as[i]? = none ∧ bs[i]? = none) ∨ ∃ a b, as[i]? = some a ∧ bs[i]? = some b ∧ Cong g care a b
  | _, _, .nil, i => by simp
  | _, _, .cons h _, 0 => .inr ⟨_, _, rfl, rfl, h⟩
  | _, _, .cons _ h, i + 1 => by simpa using CongL.get h i

theorem CongL.set {g : Glue} {care : Ev D S → Bool} : ∀ {as bs : List (Obj D W E S)} (_ : CongL g care as bs) (i : Nat) {a b : Obj D W E S} (_ : Cong g care a b),
    CongL g care (as.set i a) (bs.set i b)
  | _, _, .nil, i, _, _, _ => by simpa using .nil
  | _, _, .cons _ hs, 0, _, _, h => .cons h hs
  | _, _, .cons h hs, i + 1, _, _, h' => .cons h (CongL.set hs i h')

theorem CongL.snoc {g : Glue} {care : Ev D S → Bool} : ∀ {as bs : List (Obj D W E S)} (_ : CongL g care as bs) {a b : Obj D W E S} (_ : Cong g care a b),
    CongL g care (as ++ [a]) (bs ++ [b])
  | _, _, .nil, _, _, h => .cons h .nil
  | _, _, .cons h hs, _, _, h' => .cons h (CongL.snoc hs h')

/-- Dependencies made of variables. -/
theorem ensure_cong (g : Glue) (care : Ev D S → Bool) {as bs : List (Obj D W E S)} (h : Vars g care as bs) : ∀ (deps : List (ArgRef D W E S)),
    ((resolveAll as deps).bind ensureAll = none ∧ (resolveAll bs deps).bind ensureAll = none) ∨
    ∃ ds es, (resolveAll as deps).bind ensureAll = some ds ∧ (resolveAll bs deps).bind ensureAll = some es ∧ CongL g care ds es
  | [] => .inr ⟨[], [], rfl, rfl, .nil⟩
  | d :: deps => by
    have key : ∀ (vars : List (Obj D W E S)), (resolveAll vars (d :: deps)).bind ensureAll =
        match (d.resolve vars).bind ensureLazy, (resolveAll vars deps).bind ensureAll with
        | some o, some os => some (o :: os)
        | _, _ => none := by
      intro vars
      rw [resolveAll]
      rcases h1 : d.resolve vars with _ | x <;> rcases h2 : resolveAll vars deps with _ | xs <;> simp [ensureAll]
      · rcases ensureLazy x with _ | _ <;> rfl
    have hd : ((d.resolve as).bind ensureLazy = none ∧ (d.resolve bs).bind ensureLazy = none) ∨
        ∃ a b, (d.resolve as).bind ensureLazy = some a ∧ (d.resolve bs).bind ensureLazy = some b ∧ Cong g care a b := by
      cases d with
      | value v => exact .inr ⟨_, _, rfl, rfl, .same _⟩
      | function u =>
        rcases hu : ensureLazy (.function u : DepArg D W E S) with _ | o
        · exact .inl ⟨by simpa [ArgRef.resolve] using hu, by simpa [ArgRef.resolve] using hu⟩
        · exact .inr ⟨o, o, by simpa [ArgRef.resolve] using hu, by simpa [ArgRef.resolve] using hu, .same _⟩
      | var i =>
        rcases h.1.get i with ⟨h1, h2⟩ | ⟨a, b, h1, h2, h3⟩
        · exact .inl ⟨by simp [ArgRef.resolve, h1], by simp [ArgRef.resolve, h2]⟩
        · have ha := h.2 a (List.mem_of_getElem? h1)
          have hb := h3.isLzy ha
          refine .inr ⟨a, b, ?_, ?_, h3⟩
          · obtain ⟨_, _, _, rfl⟩ := ha
            simp only [ArgRef.resolve, h1, Option.map_some, Option.bind_some]; rfl
          · obtain ⟨_, _, _, rfl⟩ := hb
            simp only [ArgRef.resolve, h2, Option.map_some, Option.bind_some]; rfl
    rw [key, key]
    rcases hd with ⟨h1, h2⟩ | ⟨a, b, h1, h2, h3⟩
    · exact .inl ⟨by rw [h1], by rw [h2]⟩
    · rcases ensure_cong g care h deps with ⟨k1, k2⟩ | ⟨ds, es, k1, k2, k3⟩
      · exact .inl ⟨by rw [h1, k1], by rw [h2, k2]⟩
      · exact .inr ⟨a :: ds, b :: es, by rw [h1, k1], by rw [h2, k2], .cons h3 k3⟩

theorem step_cong (g : Glue) (care : Ev D S → Bool) {s t : State D W E S} (h : Vars g care s.vars t.vars) (hn : Near care s.env t.env) (op : Op D W E S) :
    seen (step g s op).1 = seen (step g t op).1 ∧ Vars g care (step g s op).2.vars (step g t op).2.vars ∧ Near care (step g s op).2.env (step g t op).2.env := by
  cases op with
  | mk f deps =>
    have key : ∀ (vars : List (Obj D W E S)), (resolveAll vars deps).bind (pigroLazy f) =
        ((resolveAll vars deps).bind ensureAll).map fun ds => lzy (.regularized f) (Cache.empty f.ret) ds := by
      intro vars
      rcases resolveAll vars deps with _ | ds
      · rfl
      · simp only [Option.bind_some, pigroLazy]
        rcases ensureAll ds with _ | ds <;> rfl
    simp only [step, key]
    rcases ensure_cong g care h deps with ⟨h1, h2⟩ | ⟨ds, es, h1, h2, h3⟩
    · rw [h1, h2]; exact ⟨rfl, h, hn⟩
    · rw [h1, h2]
      refine ⟨rfl, ⟨h.1.snoc (.node _ _ h3), ?_⟩, hn⟩
      intro a ha
      rcases List.mem_append.1 ha with ha | ha
      · exact h.2 a ha
      · simp only [List.mem_singleton] at ha; exact ⟨_, _, _, ha⟩
  | copy i =>
    simp only [step]
    rcases h.1.get i with ⟨h1, h2⟩ | ⟨a, b, h1, h2, h3⟩
    · rw [h1, h2]; exact ⟨rfl, h, hn⟩
    · rw [h1, h2]
      refine ⟨rfl, ⟨h.1.snoc h3, ?_⟩, hn⟩
      intro x hx
      rcases List.mem_append.1 hx with hx | hx
      · exact h.2 x hx
      · simp only [List.mem_singleton] at hx; exact hx ▸ h.2 a (List.mem_of_getElem? h1)
  | call i =>
    simp only [step]
    rcases h.1.get i with ⟨h1, h2⟩ | ⟨a, b, h1, h2, h3⟩
    · rw [h1, h2]; exact ⟨rfl, h, hn⟩
    · have ha := h.2 a (List.mem_of_getElem? h1)
      obtain ⟨k1, k2, k3⟩ := call0_cong g care h3 ha hn
      rw [h1, h2]
      exact ⟨by simp only [k1], ⟨h.1.set i k2, mem_set h.2 i (call0_isLzy g ha _)⟩, k3⟩
  | poll i =>
    simp only [step]
    rcases h.1.get i with ⟨h1, h2⟩ | ⟨a, b, h1, h2, h3⟩
    · rw [h1, h2]; exact ⟨rfl, h, hn⟩
    · have ha := h.2 a (List.mem_of_getElem? h1)
      obtain ⟨k1, k2, k3⟩ := evalN_cong g care h3 hn
      rw [h1, h2]
      exact ⟨by simp only [seen]; exact congrArg _ k1, ⟨h.1.set i k2, mem_set h.2 i (evalN_isLzy g ha _)⟩, k3⟩
  | poke f => exact ⟨rfl, h, by simp only [step]; exact ⟨by rw [hn.1], hn.2⟩⟩

theorem run_cong (g : Glue) (care : Ev D S → Bool) : ∀ (ops : List (Op D W E S)) {s t : State D W E S}, Vars g care s.vars t.vars → Near care s.env t.env →
    LooksSeen care (run g s ops) (run g t ops)
  | [], _, _, _, hn => ⟨rfl, hn.1, hn.2⟩
  | op :: ops, s, t, h, hn => by
    obtain ⟨h1, h2, h3⟩ := step_cong g care h hn op
    obtain ⟨k1, k2, k3⟩ := run_cong g care ops h2 h3
    exact ⟨by simp only [run, List.map_cons, h1, k1], k2, k3⟩

/-- Variables that cannot be told apart one by one. -/
theorem vars_of_tests (g : Glue) (care : Ev D S → Bool) {s t : State D W E S} (hs : ∀ a ∈ s.vars, IsLzy a) (ht : ∀ a ∈ t.vars, IsLzy a)
    (h : ∀ i (ts : List (Test W)), LooksSeen care (run g s (ts.map (Test.on i))) (run g t (ts.map (Test.on i)))) : Vars g care s.vars t.vars ∧ Near care s.env t.env := by
  have hn : Near care s.env t.env := (h 0 []).2
  have hget : ∀ i : Nat, (s.vars[i]? = none ∧ t.vars[i]? = none) ∨ ∃ a b, s.vars[i]? = some a ∧ t.vars[i]? = some b ∧ Cong g care a b := by
    intro i
    rcases h1 : s.vars[i]? with _ | a <;> rcases h2 : t.vars[i]? with _ | b
    · exact .inl ⟨rfl, rfl⟩
    · have := (h i [.call]).1
      simp [Test.on, run, step, h1, h2, seen] at this
    · have := (h i [.call]).1
      simp [Test.on, run, step, h1, h2, seen] at this
    · have ha := hs a (List.mem_of_getElem? h1)
      have hb := ht b (List.mem_of_getElem? h2)
      refine .inr ⟨a, b, rfl, rfl, .alike (fun ts w => ?_) ha hb⟩
      obtain ⟨k1, k2, k3⟩ := h i (.poke (fun _ => w) :: ts)
      obtain ⟨p1, p2⟩ := run_tests g i (.poke (fun _ => w) :: ts) s a h1
      obtain ⟨q1, q2⟩ := run_tests g i (.poke (fun _ => w) :: ts) t b h2
      rw [p1, q1] at k1
      rw [p2, q2] at k2 k3
      simp only [tests, test_poke, List.map_cons, List.cons.injEq, true_and] at k1 k2 k3
      rw [tests_log g ts ha, tests_log g ts hb] at k1 k2 k3
      refine ⟨k1, k2, ?_⟩
      simp only [List.filter_append, hn.2] at k3
      exact List.append_cancel_left k3
  refine ⟨⟨?_, hs⟩, hn⟩
  clear h hs ht hn
  generalize s.vars = as at hget
  generalize t.vars = bs at hget
  induction as generalizing bs with
  | nil =>
    cases bs with
    | nil => exact .nil
    | cons b bs => rcases hget 0 with ⟨_, h⟩ | ⟨_, _, h, _⟩ <;> simp at h
  | cons a as ih =>
    cases bs with
    | nil => rcases hget 0 with ⟨h, _⟩ | ⟨_, _, _, h, _⟩ <;> simp at h
    | cons b bs =>
      refine .cons ?_ (ih bs fun i => by simpa using hget (i + 1))
      rcases hget 0 with ⟨h, _⟩ | ⟨x, y, h1, h2, h3⟩
      · simp at h
      · simp at h1 h2; exact h1 ▸ h2 ▸ h3

end Pigro.Rfc.Shown
