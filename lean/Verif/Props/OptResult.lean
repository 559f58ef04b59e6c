import Verif.Proofs.OptResult
import Verif.Props.EffHistory
/-!
# C84: results that are optionals
-/
namespace Pigro.Eff.Opt
variable {D W E S O : Type}

/-! ### Calls, for comparisons that need not be reflexive -/

/-- **C84**, what is invoked, compared and reported by the second of two evaluations of a variable, for glue that keeps everything and for any comparison that is a pure function and
does not identify different values: exactly the functions with a dependency that counts as changed; a value counts as changed if `ne` says so, even if it is the same (NaN, empty optionals).
What `ne` says of empty caches does not matter. -/
theorem C84_recalc [CxxData D] (g : Glue) (hg : g.Retains) (ne : Val D → Val D → Bool) (nn : Val D → Bool) (hs : ∀ a b, ne a b = false → a = b) (m : Meaning D W E S O) (w : W)
    (ops1 ops2 : List (Op D W E S)) (i : Nat) (t : Tree D W E S) (ht : (runTrees [] ops1)[i]? = some t) (hok : ∀ t ∈ runTrees [] ops1, TreeOk g m t)
    (hne : ∀ op ∈ ops2, ¬ op.evaluates i) :
    let s1 := after g (ofCmp ne nn) w ops1
    let s2 := after g (ofCmp ne nn) w (ops1 ++ .call i :: ops2)
    (step g (ofCmp ne nn) s2 (.call i)).1 = .ret (.ok (m.result (m.obs s2.env.w) t)) ∧
    (step g (ofCmp ne nn) s2 (.poll i)).1 = .polled (.ok ⟨m.eager (m.obs s2.env.w) t, changed ne m (m.obs s1.env.w) (m.obs s2.env.w) t, true⟩) ∧
    fnInvs (step g (ofCmp ne nn) s2 (.call i)).2.env.log = fnInvs s2.env.log ++ recalc ne m (m.obs s1.env.w) (m.obs s2.env.w) t ∧
    nes (step g (ofCmp ne nn) s2 (.call i)).2.env.log = nes s2.env.log ++ recmp ne m (m.obs s1.env.w) (m.obs s2.env.w) t := by
  intro s1 s2
  obtain ⟨o, c, us, ho, rfl, hsh, hc, -⟩ := reach_consC g ne nn hs m w ops1 hok (.inl hg) i t ht
  obtain ⟨k1, k2, k3⟩ := hok _ (List.mem_of_getElem? ht)
  obtain ⟨r, o', env', he, -, -, -, hlast, -⟩ := evalN_stepC g ne nn hs m _ o s1.env hsh k1 k2 k3 hc
  have hlast := hlast hg
  have hsh' : Shape (.lazy c us) o' := by
    have := evalN_shape g (ofCmp ne nn) _ _ s1.env hsh; rw [he] at this; exact this
  have hs2 : s2.vars[i]? = some o' := by
    have : s2 = (run g (ofCmp ne nn) (step g (ofCmp ne nn) s1 (.call i)).2 ops2).2 := by
      simp only [s2, after, run_append, run]
      rfl
    rw [this]
    refine run_frame g _ ops2 i o' _ ?_ hne
    rw [step_call g _ s1 i o ho]
    simp only
    rw [call0_obj g _ c us o s1.env hsh, he]
    exact set_get _ _ _ _ ho
  obtain ⟨r2, o2, env2, he2, hv2, hl2, -, -, -, hex, -⟩ := evalN_stepC g ne nn hs m _ o' s2.env hsh' k1 k2 k3 hlast.cons
  obtain ⟨h0, h1, h2⟩ := hex _ hlast
  rw [step_call g _ s2 i o' hs2, step_poll g _ s2 i o' hs2]
  have hobj2 := call0_obj g (ofCmp ne nn) c us o' s2.env hsh'
  refine ⟨?_, ?_, ?_, ?_⟩
  · obtain ⟨-, c3⟩ := call0_result g (ofCmp ne nn) c us o' s2.env hsh'
    rw [c3 r2 (by rw [he2]) hl2, hv2]
    rfl
  · rcases r2 with ⟨v2, f2, l2⟩
    simp only at hv2 hl2 h0
    subst hv2 hl2
    simp only
    rw [he2, h0]
  · simp only; rw [hobj2, he2]; exact h1
  · simp only; rw [hobj2, he2]; exact h2

/-- **C84**, first evaluations: for glue that keeps nothing, every evaluation is a first one. It invokes all functions, compares nothing, and what it reports is what the comparison
says of an empty cache. -/
theorem C84_first [CxxData D] (g : Glue) (hg : g.Drops) (ne : Val D → Val D → Bool) (nn : Val D → Bool) (hs : ∀ a b, ne a b = false → a = b) (m : Meaning D W E S O) (w : W)
    (prog : List (Op D W E S)) (i : Nat) (t : Tree D W E S) (ht : (runTrees [] prog)[i]? = some t) (hok : ∀ t ∈ runTrees [] prog, TreeOk g m t) :
    let s := after g (ofCmp ne nn) w prog
    (step g (ofCmp ne nn) s (.call i)).1 = .ret (.ok (m.result (m.obs s.env.w) t)) ∧
    (step g (ofCmp ne nn) s (.poll i)).1 = .polled (.ok ⟨m.eager (m.obs s.env.w) t, firstFlag nn m (m.obs s.env.w) t, true⟩) ∧
    fnInvs (step g (ofCmp ne nn) s (.call i)).2.env.log = fnInvs s.env.log ++ m.firstCalls (m.obs s.env.w) t ∧
    nes (step g (ofCmp ne nn) s (.call i)).2.env.log = nes s.env.log := by
  intro s
  obtain ⟨o, c, us, ho, rfl, hsh, hc, hp⟩ := reach_consC g ne nn hs m w prog hok (.inr hg) i t ht
  obtain ⟨k1, k2, k3⟩ := hok _ (List.mem_of_getElem? ht)
  obtain ⟨r2, o', env', he2, hv2, hl2, -, -, -, -, hex⟩ := evalN_stepC g ne nn hs m _ o s.env hsh k1 k2 k3 hc
  obtain ⟨h0, h1, h2⟩ := hex (hp hg)
  rw [step_call g _ s i o ho, step_poll g _ s i o ho]
  have hobj2 := call0_obj g (ofCmp ne nn) c us o s.env hsh
  refine ⟨?_, ?_, ?_, ?_⟩
  · obtain ⟨-, c3⟩ := call0_result g (ofCmp ne nn) c us o s.env hsh
    rw [c3 r2 (by rw [he2]) hl2, hv2]
    rfl
  · rcases r2 with ⟨v2, f2, l2⟩
    simp only at hv2 hl2 h0
    subst hv2 hl2
    simp only
    rw [he2, h0]
  · simp only; rw [hobj2, he2]; exact h1
  · simp only; rw [hobj2, he2]; exact h2

/-! ### The comparison of an optional with its content -/

variable {X : Type} [CxxData X]

theorem neHom_sound (hs : SoundNe X) : ∀ (k : Nat) (a b : OptN X k), neHom CxxData.ne k a b = false → a = b
  | 0, a, b, h => hs a b h
  | _ + 1, none, none, _ => rfl
  | k + 1, some a, some b, h => by rw [neHom_sound hs k a b h]
  | _ + 1, none, some _, h => by simp [neHom] at h
  | _ + 1, some _, none, h => by simp [neHom] at h

theorem neHom_refl (hr : ReflNe X) : ∀ (k : Nat) (a : OptN X k), neHom CxxData.ne k a a = false
  | 0, a => hr a
  | _ + 1, none => rfl
  | k + 1, some a => neHom_refl hr k a

theorem data_sound {n : Nat} (hs : SoundNe X) : SoundNe (Data X n) := by
  rintro ⟨k, a⟩ ⟨k', b⟩ h
  simp only [CxxData.ne] at h
  split at h
  · rename_i hk
    subst hk
    rw [neHom_sound hs k a b h]
  · cases h

/-- **C84**, without optionals this is the model of before. -/
theorem C84_plain : (optOps 0 : Ops (Data X 0) W E) = .pure := by
  have h1 : (neCache : Val (Data X 0) → Val (Data X 0) → Bool) = Val.ne := by
    funext a b
    cases a <;> cases b <;> try rfl
    rename_i a b
    rcases a with ⟨⟨_ | k, hk⟩, a⟩
    · rcases b with ⟨⟨_ | k', hk'⟩, b⟩
      · simp [neCache, neOV, Val.ne, CxxData.ne, neHom]
      · omega
    · omega
  have h2 : (neEmpty : Val (Data X 0) → Bool) = fun _ => true := by
    funext a
    cases a <;> try rfl
    rename_i a
    rcases a with ⟨⟨_ | k, hk⟩, a⟩
    · rfl
    · omega
  rw [optOps, h1, h2]
  rfl

/-- **C84**, what `cache != result` says for a cache with a value and results of type `std::optional<X>`: they differ, unless both have values and these do not differ. In particular
an empty optional differs from itself. -/
theorem C84_differs (c r : OptN X 1) : neOV CxxData.ne 1 (some c) r = false ↔ ∃ (x y : X), c = some x ∧ r = some y ∧ CxxData.ne x y = false := by
  rcases c with _ | x <;> rcases r with _ | y
  · exact ⟨fun h => by simp [neOV] at h, fun ⟨_, _, h, _⟩ => by cases h⟩
  · exact ⟨fun h => by simp [neOV] at h, fun ⟨_, _, h, _⟩ => by cases h⟩
  · exact ⟨fun h => by simp [neOV] at h, fun ⟨_, _, _, h, _⟩ => by cases h⟩
  · refine ⟨fun h => ⟨x, y, rfl, rfl, h⟩, ?_⟩
    rintro ⟨_, _, h1, h2, h3⟩
    cases h1; cases h2
    exact h3

theorem neOV_self (hr : ReflNe X) : ∀ (k : Nat) (a : OptN X k), neOV CxxData.ne k (some a) a = false ↔ FullN k a
  | 0, a => by simp [neOV, FullN, hr a]
  | k + 1, none => by simp [neOV, FullN]
  | k + 1, some a => by
    simp only [neOV, FullN]
    exact neOV_self hr k a

/-- **C84**, a value counts as changed although it is the same if and only if there is an empty optional in it. -/
theorem C84_self (hr : ReflNe X) {n : Nat} (v : Val (Data X n)) : neCache v v = false ↔ Full v := by
  cases v with
  | data a => simpa [neCache, Full] using neOV_self hr a.1 a.2
  | rvoid => simp [neCache, Full, Val.ne]
  | tup vs =>
    have : Val.ne (.tup vs) (.tup vs) = false := Val.ne_refl (D := Data X n) (by
      rintro ⟨k, a⟩
      simp [CxxData.ne, neHom_refl hr]) _
    simp [neCache, Full, this]

theorem neOV_unsound : ∀ k : Nat, ∃ a b : OptN X (k + 2), a ≠ b ∧ neOV CxxData.ne (k + 2) (some a) b = false
  | 0 => ⟨none, some none, by simp [OptN], by simp [neOV]⟩
  | k + 1 => by
    obtain ⟨a, b, h, h'⟩ := neOV_unsound k
    exact ⟨some a, some b, fun e => h (Option.some.inj e), by simpa only [neOV] using h'⟩

theorem neCache_sound (hs : SoundNe X) {n : Nat} (hn : n ≤ 1) (a b : Val (Data X n)) (h : neCache a b = false) : a = b := by
  cases a with
  | data a =>
    cases b with
    | data b =>
      rcases a with ⟨k, a⟩
      rcases b with ⟨k', b⟩
      simp only [neCache] at h
      split at h
      · rename_i hk
        subst hk
        rcases k with ⟨_ | _ | k, hk⟩
        · rw [hs a b h]
        · obtain ⟨x, y, rfl, rfl, h⟩ := (C84_differs a b).1 h
          rw [hs x y h]
        · omega
      · cases h
    | _ => simp [neCache, Val.ne] at h
  | rvoid => exact Val.ne_sound (data_sound hs) _ _ h
  | tup vs => exact Val.ne_sound (data_sound hs) _ _ h

/-- **C84**, a difference is overlooked if and only if there are results that are optionals of optionals. -/
theorem C84_sound_iff (hs : SoundNe X) (n : Nat) (w0 : W) : (optOps n : Ops (Data X n) W E).Sound ↔ n ≤ 1 := by
  constructor
  · intro h
    rcases n with _ | _ | n
    · omega
    · omega
    · exfalso
      obtain ⟨a, b, hab, h2⟩ := neOV_unsound (X := X) 0
      have := h (.data ⟨⟨2, by omega⟩, a⟩) (.data ⟨⟨2, by omega⟩, b⟩) w0 (by simp [optOps, ofCmp, neCache, h2])
      simp only [Val.data.injEq, Sigma.mk.injEq, heq_eq_eq, true_and] at this
      exact hab this
  · intro hn a b w h
    simp only [optOps, ofCmp, Except.ok.injEq] at h
    exact neCache_sound hs hn a b h

/-! ### Freshness -/

/-- **C84** (partial). In full: with results that are optionals, however nested, a call returns or throws what evaluating the whole tree eagerly does now.

Here: if there are no optionals of optionals, for lazy functions that, and the variables they were made from before they were made, have not thrown; and for glue that keeps nothing for all.
Missing: optionals of optionals (`C84_stale`), variables that have thrown (C81). -/
theorem C84_fresh_partial (hs : SoundNe X) {n : Nat} (hn : n ≤ 1) (g : Glue) (m : MeaningE (Data X n) W E S O) (w : W) (prog : List (Op (Data X n) W E S))
    (hok : ∀ t ∈ runTrees [] prog, TreeOkE g m t) (i : Nat) (t : Tree (Data X n) W E S) (ht : (runTrees [] prog)[i]? = some t)
    (hg : g.Drops ∨ (g.Retains ∧ (marks [] prog (run g (optOps n) (State.init w) prog).1)[i]? = some false)) :
    (step g (optOps n) (after g (optOps n) w prog) (.call i)).1 = .ret (m.result (m.obs (after g (optOps n) w prog).env.w) t) := by
  obtain ⟨l, hl, h⟩ := C81_fresh_partial g (optOps n) ((C84_sound_iff hs n w).2 hn) m ⟨fun _ _ _ => rfl, fun _ _ _ => rfl⟩ w prog hok i t ht hg
  rcases h with h | ⟨e, -, before, h⟩
  · exact h
  exfalso
  have all : ∀ ev ∈ (step g (optOps n) (after g (optOps n) w prog) (.call i)).2.env.log,
      (∀ a b e, ev ≠ .ne a b (.error e)) ∧ ∀ a b e, ev ≠ .store a b (.error e) := by
    have := run_events g (optOps n : Ops (Data X n) W E) (fun ev => (∀ a b e, ev ≠ .ne a b (.error e)) ∧ ∀ a b e, ev ≠ .store a b (.error e))
      (by simp) (by simp [optOps, ofCmp]) (by simp [optOps, ofCmp]) (prog ++ [.call i]) (State.init w) (by simp [State.init])
    simpa only [run_append, run] using this
  rw [hl] at all
  rcases h with ⟨a, b, rfl⟩ | ⟨a, b, rfl⟩
  · exact (all (.ne a b (.error e)) (by simp)).1 a b e rfl
  · exact (all (.store a b (.error e)) (by simp)).2 a b e rfl

/-! ### Settling down -/

theorem changed_self (hr : ReflNe X) {n : Nat} (m : Meaning (Data X n) W E S O) (o : O) : ∀ t : Tree (Data X n) W E S,
    (∀ c ∈ leaves t, c.ret = .val → Full (m.eager o (.function c))) → changed neCache m o o t = false ∧ recalc neCache m o o t = []
  | .value _, _ => by simp [changed, recalc]
  | .function c, h => by
    refine ⟨?_, by simp [recalc]⟩
    simp only [changed, Bool.and_eq_false_iff]
    by_cases hc : c.ret = .val
    · exact .inr ((C84_self hr _).2 (h c (by simp [leaves]) hc))
    · exact .inl (by simpa using hc)
  | .lazy c deps, h => by
    have hd : ∀ d ∈ deps, changed neCache m o o d = false ∧ recalc neCache m o o d = [] := fun d hd =>
      changed_self hr m o d fun c hc => h c (by simp only [leaves, List.mem_flatten, List.mem_map]; exact ⟨_, ⟨d, hd, rfl⟩, hc⟩)
    have h1 : (deps.map (changed neCache m o o)).any id = false := by
      simp only [List.any_map, List.any_eq_false, Function.comp, id]
      intro d h; rw [(hd d h).1]; simp
    have h2 : (deps.map (recalc neCache m o o)).flatten = [] := by
      simp only [List.flatten_eq_nil_iff, List.mem_map, forall_exists_index, and_imp, forall_apply_eq_imp_iff₂]
      intro d h; exact (hd d h).2
    simp [changed, recalc, h1, h2]

theorem full_of_recalc (hr : ReflNe X) {n : Nat} (m : Meaning (Data X n) W E S O) (o : O) : ∀ t : Tree (Data X n) W E S,
    changed neCache m o o t = false ∨ (∃ c us, t = .lazy c us) → recalc neCache m o o t = [] →
    ∀ c ∈ leaves t, c.ret = .val → Full (m.eager o (.function c))
  | .value _, _, _ => by simp [leaves]
  | .function c, h, _ => by
    intro c' hc' hv
    simp only [leaves, List.mem_singleton] at hc'
    subst hc'
    rcases h with h | ⟨_, _, h⟩
    · simp only [changed, hv, beq_self_eq_true, Bool.true_and] at h
      exact (C84_self hr _).1 h
    · cases h
  | .lazy c deps, _, h => by
    simp only [recalc, List.append_eq_nil_iff, List.flatten_eq_nil_iff, List.mem_map, forall_exists_index, and_imp, forall_apply_eq_imp_iff₂] at h
    intro c' hc' hv
    simp only [leaves, List.mem_flatten, List.mem_map] at hc'
    obtain ⟨_, ⟨d, hd, rfl⟩, hc'⟩ := hc'
    refine full_of_recalc hr m o d (.inl ?_) (h.1 d hd) c' hc' hv
    have h2 := h.2
    split at h2
    · cases h2
    · rename_i hany
      simp only [List.any_map, List.any_eq_true, Function.comp, id, not_exists, not_and, Bool.not_eq_true] at hany
      exact hany d hd

/-- **C84**, when nothing has changed between two calls, nothing is calculated again if and only if no plain function in the tree returns an empty optional. -/
theorem C84_settled_iff (hr : ReflNe X) {n : Nat} (m : Meaning (Data X n) W E S O) (o : O) (c : FnCode (Data X n) W E S) (deps : List (Tree (Data X n) W E S)) :
    recalc neCache m o o (.lazy c deps) = [] ↔ ∀ c' ∈ leaves (.lazy c deps), c'.ret = .val → Full (m.eager o (.function c')) :=
  ⟨full_of_recalc hr m o _ (.inr ⟨_, _, rfl⟩), fun h => (changed_self hr m o _ h).2⟩

/-- **C84**, whatever else has changed or not, a lazy function is calculated again if a plain function it depends on returns an empty optional. -/
theorem C84_wasteful {n : Nat} (m : Meaning (Data X n) W E S O) (o1 o2 : O) (c c' : FnCode (Data X n) W E S) (deps : List (Tree (Data X n) W E S))
    (hc : Tree.function c' ∈ deps) (hv : c'.ret = .val) (k : Nat) (hk : k + 1 < n + 1) (he : m.eager o2 (.function c') = .data ⟨⟨k + 1, hk⟩, (none : Option (OptN X k))⟩)
    (hty : ∃ a, m.eager o1 (.function c') = .data ⟨⟨k + 1, hk⟩, a⟩) :
    (c.id, deps.map (m.eager o2)) ∈ recalc neCache m o1 o2 (.lazy c deps) := by
  have : (deps.map (changed neCache m o1 o2)).any id = true := by
    simp only [List.any_map, List.any_eq_true, Function.comp, id]
    refine ⟨_, hc, ?_⟩
    obtain ⟨a, ha⟩ := hty
    simp only [changed, hv, he, ha, neCache, beq_self_eq_true, Bool.true_and, dite_true]
    rfl
  simp [recalc, this]

/-! ### Programs -/

theorem nat_sound : SoundNe Nat := fun a b h => by simpa [CxxData.ne] using h
theorem nat_refl : ReflNe Nat := fun a => by simp [CxxData.ne]

/-- A number. -/
def num {n : Nat} (x : Nat) : Val (Data Nat n) := .data ⟨⟨0, by omega⟩, x⟩
/-- `std::optional<int>` -/
def opt (x : Option Nat) : Val (Data Nat 1) := .data ⟨⟨1, by omega⟩, x⟩
/-- `std::optional<std::optional<int>>` -/
def optopt (x : Option (Option Nat)) : Val (Data Nat 2) := .data ⟨⟨2, by omega⟩, x⟩

/-- `x.has_value() ? 1 : 0` -/
def has {n : Nat} : List (Val (Data Nat n)) → Val (Data Nat n)
  | [.data ⟨⟨_ + 1, _⟩, (none : Option _)⟩] => num 0
  | [.data ⟨⟨_ + 1, _⟩, (some _ : Option _)⟩] => num 1
  | _ => num 2

/-- `[](auto x) { return x.has_value() ? 1 : 0; }` -/
def oHas {n : Nat} {W : Type} : UFn (Data Nat n) W Unit Unit := { id := 1, ret := .val, run := fun s a w => (.ok (has a), s, w), st := () }

/-- `[&] { return x; }` for `std::optional<int> x`, which is the world. -/
def oRead : UFn (Data Nat 1) (Option Nat) Unit Unit := { id := 0, ret := .val, run := fun s _ w => (.ok (opt w), s, w), st := () }
/-- The same for `std::optional<std::optional<int>> x`. -/
def ooRead : UFn (Data Nat 2) (Option (Option Nat)) Unit Unit := { id := 0, ret := .val, run := fun s _ w => (.ok (optopt w), s, w), st := () }

/-- **C84**, the full claim is false: `h = lazy([](auto x) { return x.has_value(); }, [&] { return x; })` with `std::optional<std::optional<int>> x`. When `x` changes from `nullopt` to an
optional that contains `nullopt`, `h` still returns 0, where eager evaluation gives 1. Nothing is thrown, and everything is kept between calls. -/
theorem C84_stale :
    (run Glue.retained (optOps 2) (State.init none) [.mk oHas [.function ooRead], .call 0, .poke (fun _ => some none), .call 0]).1 =
      [.unit, .ret (.ok (some (num 0))), .unit, .ret (.ok (some (num 0)))] ∧
    (run Glue.retained (optOps 2) (State.init (some none)) [.mk oHas [.function ooRead], .call 0]).1 =
      [.unit, .ret (.ok (some (num 1)))] := ⟨rfl, rfl⟩

/-- What these functions return, for `std::optional<int> x`. -/
def oMeaning : Meaning (Data Nat 1) (Option Nat) Unit Unit (Option Nat) where
  obs w := w
  fn c args := match (c.run () args none).1 with
    | .ok v => v
    | .error _ => num 0
  leaf c o := match (c.run () [] o).1 with
    | .ok v => v
    | .error _ => num 0

/-- `h = lazy([](auto x) { return x.has_value(); }, [&] { return x; })` -/
def oTree : Tree (Data Nat 1) (Option Nat) Unit Unit := .lazy oHas.toFnCode [.function oRead.toFnCode]

/-- The program that makes it. -/
def oProg : List (Op (Data Nat 1) (Option Nat) Unit Unit) := [.mk oHas [.function oRead]]

theorem oTree_ok (g : Glue) (hg : g.resultByRef = false) : TreeOk g oMeaning oTree := by
  refine ⟨.lazy _ _ (fun s a w => ⟨rfl, rfl⟩) ?_, .lazy _ _ ?_ ?_, .inl hg⟩
  · intro t ht; simp at ht; subst ht; exact .function _ (fun s w => ⟨rfl, rfl⟩)
  · intro t ht o vs
    simp at ht; subst ht
    simp [Meaning.eager, oMeaning, oRead, opt, RetTy.regularize]
  · intro t ht; simp at ht; subst ht; exact .function _

theorem oProg_ok (g : Glue) (hg : g.resultByRef = false) : ∀ t ∈ runTrees [] oProg, TreeOk g oMeaning t := by
  intro t ht
  have h2 : t ∈ [oTree] := ht
  simp only [List.mem_singleton] at h2
  subst h2; exact oTree_ok g hg

/-- The same, with exceptions (there are none). -/
def oMeaningE : MeaningE (Data Nat 1) (Option Nat) Unit Unit (Option Nat) where
  obs w := w
  fn c args := (c.run () args none).1
  leaf c o := (c.run () [] o).1

theorem oTree_okE : TreeOkE Glue.retained oMeaningE oTree := by
  refine ⟨.lazy _ _ (fun s a w => ⟨rfl, rfl⟩) ?_, .lazy _ _ ?_ ?_, .inl rfl⟩
  · intro t ht; simp at ht; subst ht; exact .function _ (fun s w => ⟨rfl, rfl⟩)
  · intro t ht o vs
    simp at ht; subst ht
    simp [MeaningE.eager, oMeaningE, oRead, opt, RetTy.regularize]
  · intro t ht; simp at ht; subst ht; exact .function _

/-- An optional that goes from `nullopt` to any `x`: the third call is right. -/
example (x : Option Nat) : (step Glue.retained (optOps 1) (after Glue.retained (optOps 1) none (oProg ++ [.call 0, .call 0, .poke fun _ => x])) (.call 0)).1 =
    .ret (oMeaningE.result x oTree) :=
  C84_fresh_partial nat_sound (Nat.le_refl 1) Glue.retained oMeaningE none (oProg ++ [.call 0, .call 0, .poke fun _ => x])
    (by
      intro t ht
      have h2 : t ∈ [oTree] := ht
      simp only [List.mem_singleton] at h2
      subst h2; exact oTree_okE) 0 oTree rfl (.inr ⟨⟨rfl, rfl, rfl, rfl⟩, rfl⟩)

example : oMeaningE.result (some 7) oTree = .ok (some (num 1)) ∧ oMeaningE.result none oTree = .ok (some (num 0)) := ⟨rfl, rfl⟩

/-- What the second of two calls invokes when `x` was `a` and is `b`: nothing if both have the same number; the function otherwise, also if both are `nullopt`. -/
example (a b : Option Nat) :
    fnInvs (step Glue.retained (optOps 1) (after Glue.retained (optOps 1) a (oProg ++ [.call 0, .poke fun _ => b])) (.call 0)).2.env.log =
      fnInvs (after Glue.retained (optOps 1) a (oProg ++ [.call 0, .poke fun _ => b])).env.log ++ recalc neCache oMeaning a b oTree :=
  (C84_recalc Glue.retained ⟨rfl, rfl, rfl, rfl⟩ neCache neEmpty (neCache_sound nat_sound (Nat.le_refl 1)) oMeaning a oProg [.poke fun _ => b] 0 oTree rfl
    (oProg_ok _ rfl) (by simp [Op.evaluates])).2.2.1

example (x : Nat) : recalc neCache oMeaning (some x) (some x) oTree = [] := by
  refine (C84_settled_iff nat_refl oMeaning (some x) _ _).2 ?_
  intro c' hc' _
  simp only [leaves, List.map_cons, List.map_nil, List.flatten_cons, List.flatten_nil, List.append_nil, List.mem_singleton] at hc'
  subst hc'
  simp [Meaning.eager, oMeaning, oRead, opt, RetTy.regularize, Full, FullN]

example (a : Option Nat) : (1, [opt none]) ∈ recalc neCache oMeaning a none oTree := by
  have := C84_wasteful oMeaning a none oHas.toFnCode oRead.toFnCode [.function oRead.toFnCode] (List.mem_singleton.2 rfl) rfl 0 (by omega)
    (by simp only [Meaning.eager, oMeaning, oRead, opt, RetTy.regularize]; rfl) ⟨a, by simp [Meaning.eager, oMeaning, oRead, opt, RetTy.regularize]⟩
  simpa [Meaning.eager, oMeaning, oRead, opt, RetTy.regularize, oHas, oTree] using this

/-- With results returned by value and nothing kept. -/
def copying : Glue := { Glue.asWritten with resultByRef := false }

example (x : Option Nat) : fnInvs (step copying (optOps 1) (after copying (optOps 1) x oProg) (.call 0)).2.env.log =
    fnInvs (after copying (optOps 1) x oProg).env.log ++ [(1, [opt x])] := by
  obtain ⟨-, -, h, -⟩ := C84_first copying (.inl rfl) neCache neEmpty (neCache_sound nat_sound (Nat.le_refl 1)) oMeaning x oProg 0 oTree rfl (oProg_ok _ rfl)
  refine h.trans ?_
  simp only [oTree, Meaning.firstCalls, List.map_cons, List.map_nil, List.flatten_cons, List.flatten_nil, List.append_nil, Meaning.eager, oMeaning, oRead, oHas,
    RetTy.regularize]
  rfl

/-- `[](std::optional<int> x) { return x; }` -/
def oSame : UFn (Data Nat 1) (Option Nat) Unit Unit :=
  { id := 2, ret := .val, run := fun s a w => (match a with
    | [v] => .ok v
    | _ => .ok (num 0), s, w), st := () }

/-- **C84**, first results are not always reported as changed: the first poll of `lazy([](auto x) { return x; }, [&] { return x; })` reports `nullopt` as unchanged and a second, with
nothing changed, as changed. For a number it is the other way round. -/
theorem C84_first_poll : (run Glue.retained (optOps 1) (State.init none) [.mk oSame [.function oRead], .poll 0, .poll 0]).1 =
      [.unit, .polled (.ok ⟨opt none, false, true⟩), .polled (.ok ⟨opt none, true, true⟩)] ∧
    (run Glue.retained (optOps 1) (State.init (some 3)) [.mk oSame [.function oRead], .poll 0, .poll 0]).1 =
      [.unit, .polled (.ok ⟨opt (some 3), true, true⟩), .polled (.ok ⟨opt (some 3), false, true⟩)] := ⟨rfl, rfl⟩

/-- **C84**, as the code is written: the first call of such a function is undefined, as that of any other (C01). -/
theorem C84_pinned (x : Option Nat) : (run Glue.asWritten (optOps 1) (State.init x) (oProg ++ [.call 0])).1 = [.unit, .ret .ub] := rfl

/-- A comparison that is not reflexive, like that of floating-point numbers: here 0 plays the part of NaN. -/
def nanNe : Val Nat → Val Nat → Bool
  | .data a, .data b => a != b || a == 0
  | a, b => Val.ne a b

theorem nanNe_sound : ∀ a b, nanNe a b = false → a = b := by
  intro a b h
  cases a with
  | data a =>
    cases b with
    | data b => simp only [nanNe, Bool.or_eq_false_iff, bne_eq_false_iff_eq] at h; rw [h.1]
    | _ => exact Val.ne_sound nat_sound _ _ h
  | _ => exact Val.ne_sound nat_sound _ _ h

/-- `[](double a) { return a / 2; }` -/
def nHalf : UFn Nat Nat Unit Unit :=
  { id := 1, ret := .val, run := fun s a w => (match a with
    | [.data x] => .ok (.data (x / 2))
    | _ => .ok (.data 0), s, w), st := () }
/-- `[&] { return x; }` -/
def nRead : UFn Nat Nat Unit Unit := { id := 0, ret := .val, run := fun s _ w => (.ok (.data w), s, w), st := () }

/-- What these functions return. -/
def nMeaning : Meaning Nat Nat Unit Unit Nat where
  obs w := w
  fn c args := match (c.run () args 0).1 with
    | .ok v => v
    | .error _ => .data 0
  leaf c o := match (c.run () [] o).1 with
    | .ok v => v
    | .error _ => .data 0

/-- `lazy(half, [&] { return x; })` with such numbers, called again: `half` is invoked if and only if `x` has changed or is NaN. -/
example (x y : Nat) : fnInvs (step Glue.retained (ofCmp nanNe fun _ => true)
      (after Glue.retained (ofCmp nanNe fun _ => true) x [.mk nHalf [.function nRead], .call 0, .poke fun _ => y]) (.call 0)).2.env.log =
    fnInvs (after Glue.retained (ofCmp nanNe fun _ => true) x [.mk nHalf [.function nRead], .call 0, .poke fun _ => y]).env.log ++
      if x != y || x == 0 then [(1, [.data y])] else [] := by
  have h := (C84_recalc Glue.retained ⟨rfl, rfl, rfl, rfl⟩ nanNe (fun _ => true) nanNe_sound nMeaning x [.mk nHalf [.function nRead]] [.poke fun _ => y] 0
    (.lazy nHalf.toFnCode [.function nRead.toFnCode]) rfl (by
      intro t ht
      have h2 : t ∈ [Tree.lazy nHalf.toFnCode [.function nRead.toFnCode]] := ht
      simp only [List.mem_singleton] at h2
      subst h2
      refine ⟨.lazy _ _ (fun s a w => ⟨?_, rfl⟩) ?_, .lazy _ _ ?_ ?_, .inl rfl⟩
      · simp only [nMeaning, nHalf]; split <;> rfl
      · intro t ht; simp at ht; subst ht; exact .function _ (fun s w => ⟨rfl, rfl⟩)
      · intro t ht o vs
        simp at ht; subst ht
        simp [Meaning.eager, nMeaning, nRead, RetTy.regularize]
      · intro t ht; simp at ht; subst ht; exact .function _) (by simp [Op.evaluates])).2.2.1
  refine h.trans ?_
  simp only [recalc, changed, List.map_cons, List.map_nil, List.flatten_cons, List.flatten_nil, List.append_nil, Meaning.eager, nMeaning, nRead, nHalf,
    RetTy.regularize, List.any_cons, List.any_nil, Bool.or_false, id]
  rfl

end Pigro.Eff.Opt
