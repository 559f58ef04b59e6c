import Verif.Proofs.ThreadsLocal
/-!
# Interleaved programs
-/
namespace Pigro.Thr
variable {D W E S α β ι : Type}

/-- In whatever it reads and whatever functions return, a program calls functions in `Q` only. -/
abbrev Prog.Calls (Q : UFn D W E S → Prop) (P : Prog D W E S α) : Prop := P.Inside (fun _ => True) (fun _ => True) Q fun _ => True

theorem Prog.Inside.calls {R Wr : Loc → Prop} {Q Q' : UFn D W E S → Prop} {Post : α → Prop} {P : Prog D W E S α} (h : P.Inside R Wr Q Post) (hQ : ∀ u, Q u → Q' u) : P.Calls Q' :=
  h.mono (fun _ _ => trivial) (fun _ _ => trivial) hQ fun _ _ => trivial

theorem inside_advance {R Wr : Loc → Prop} {Q : UFn D W E S → Prop} {Post : α → Prop} {P : Prog D W E S α} (h : P.Inside R Wr Q Post) (m : Mem D) (env : Env D W S) :
    (advance (m, env, P)).2.2.Inside R Wr Q Post := by
  cases P with
  | ret a => exact h
  | rd l k => exact h.2 _
  | wr l c k => exact h.2
  | call kind u args k => exact h.2 _
  | cmp a b k => exact h

theorem inside_exec [DecidableEq ι] {R Wr : ι → Loc → Prop} {Q : UFn D W E S → Prop} {Post : α → Prop} (is : List ι) : ∀ (s : Sys D W E S ι α), (∀ i, (s.thr i).Inside (R i) (Wr i) Q Post) →
    ∀ i, ((exec s is).thr i).Inside (R i) (Wr i) Q Post := by
  induction is with
  | nil => exact fun s h => h
  | cons j is ih =>
    intro s h
    refine ih _ fun i => ?_
    simp only [tick]
    split
    · next he => subst he; exact inside_advance (h i) _ _
    · exact h i

theorem raceFree_inside [DecidableEq ι] {s : Sys D W E S ι α} {R Wr : ι → Loc → Prop} (h : ∀ i, (s.thr i).Inside (R i) (Wr i) (fun _ => True) fun _ => True)
    (hsep : ∀ i j l, i ≠ j → Wr j l → ¬ R i l ∧ ¬ Wr i l) : RaceFree s := by
  intro is ⟨i, j, l, hij, hi, hj⟩
  have h1 := inside_exec is s h i
  have h2 := inside_exec is s h j
  generalize (exec s is).thr i = P at h1 hi
  generalize (exec s is).thr j = P' at h2 hj
  cases P' with
  | wr l' c k =>
    obtain rfl : l' = l := hj
    have := hsep i j l' hij h2.1
    cases P with
    | rd l'' k => obtain rfl : l'' = l' := hi; exact this.1 h1.1
    | wr l'' c k => obtain rfl : l'' = l' := hi; exact this.2 h1.1
    | _ => exact hi
  | _ => exact hj

theorem alone_zero (m : Mem D) (env : Env D W S) (P : Prog D W E S α) : alone m env P 0 = (m, env, P) := rfl

theorem alone_succ (m : Mem D) (env : Env D W S) (P : Prog D W E S α) (n : Nat) : alone m env P (n + 1) = advance (alone m env P n) := rfl

theorem alone_first (m : Mem D) (env : Env D W S) (P : Prog D W E S α) (n : Nat) :
    alone m env P (n + 1) = alone (advance (m, env, P)).1 (advance (m, env, P)).2.1 (advance (m, env, P)).2.2 n := by
  induction n with
  | zero => rfl
  | succ n ih => rw [alone_succ, ih]; rfl

theorem alone_done (m : Mem D) (env : Env D W S) (P : Prog D W E S α) :
    ∃ N, ∀ n, N ≤ n → alone m env P n = ((P.run m env).2.1, (P.run m env).2.2, .ret (P.run m env).1) := by
  have hs : ∀ (m : Mem D) (env : Env D W S) (P : Prog D W E S α) (x : α × Mem D × Env D W S),
      (∃ N, ∀ n, N ≤ n → alone (advance (m, env, P)).1 (advance (m, env, P)).2.1 (advance (m, env, P)).2.2 n = (x.2.1, x.2.2, .ret x.1)) →
      ∃ N, ∀ n, N ≤ n → alone m env P n = (x.2.1, x.2.2, .ret x.1) := by
    intro m env P x ⟨N, hN⟩
    refine ⟨N + 1, fun n hn => ?_⟩
    obtain ⟨k, rfl⟩ : ∃ k, n = k + 1 := ⟨n - 1, by omega⟩
    rw [alone_first]
    exact hN k (by omega)
  induction P generalizing m env with
  | ret a =>
    refine ⟨0, fun n _ => ?_⟩
    induction n with
    | zero => rfl
    | succ n ih => rw [alone_succ, ih (by omega)]; rfl
  | rd l k ih => exact hs _ _ _ _ (ih _ _ _)
  | wr l c k ih => exact hs _ _ _ _ (ih _ _)
  | call kind u args k ih => exact hs _ _ _ _ (ih _ _ _)
  | cmp a b k ih => exact hs _ _ _ _ (ih _ _)

theorem alone_stays {m : Mem D} {env : Env D W S} {P : Prog D W E S α} {n : Nat} {a : α} (h : (alone m env P n).2.2 = .ret a) (k : Nat) : alone m env P (n + k) = alone m env P n := by
  induction k with
  | zero => rfl
  | succ k ih =>
    rw [← Nat.add_assoc, alone_succ, ih]
    generalize alone m env P n = x at h ⊢
    obtain ⟨m', env', P'⟩ := x
    simp only at h
    subst h
    rfl

theorem alone_ret {m : Mem D} {env : Env D W S} {P : Prog D W E S α} {n : Nat} {a : α} (h : (alone m env P n).2.2 = .ret a) :
    a = (P.run m env).1 ∧ (alone m env P n).1 = (P.run m env).2.1 ∧ (alone m env P n).2.1 = (P.run m env).2.2 := by
  obtain ⟨N, hN⟩ := alone_done m env P
  have h1 := alone_stays h N
  rw [hN (n + N) (by omega)] at h1
  rw [← h1] at h ⊢
  exact ⟨by injection h with h; exact h.symm, rfl, rfl⟩

theorem alone_calls {Q : UFn D W E S → Prop} {m : Mem D} {env : Env D W S} {P : Prog D W E S α} (h : P.Calls Q) (n : Nat) : (alone m env P n).2.2.Calls Q := by
  induction n with
  | zero => exact h
  | succ n ih => rw [alone_succ]; exact inside_advance ih _ _

theorem advance_world {m : Mem D} {env : Env D W S} {P : Prog D W E S α} (h : P.Calls Pure) : (advance (m, env, P)).2.1.w = env.w := by
  cases P with
  | call kind u args k => exact h.1 args env.w
  | _ => rfl

theorem alone_world {m : Mem D} {env : Env D W S} {P : Prog D W E S α} (h : P.Calls Pure) (n : Nat) : (alone m env P n).2.1.w = env.w := by
  induction n with
  | zero => rfl
  | succ n ih =>
    rw [alone_succ, ← ih]
    exact advance_world (alone_calls h n)

/-- Alone, no thread writes what another one accesses. -/
def Separate (s : Sys D W E S ι α) : Prop :=
  ∀ i j n n' l, i ≠ j → (alone s.mem s.env (s.thr i) n).2.2.at l → ¬ (alone s.mem s.env (s.thr j) n').2.2.writes l

/-- Thread `i` has done `ks i` steps as alone. -/
structure Inv (s0 : Sys D W E S ι α) (ks : ι → Nat) (s : Sys D W E S ι α) : Prop where
  world : s.env.w = s0.env.w
  progs : ∀ i, s.thr i = (alone s0.mem s0.env (s0.thr i) (ks i)).2.2
  mine : ∀ i l, (∃ n, (alone s0.mem s0.env (s0.thr i) n).2.2.at l) → s.mem l = (alone s0.mem s0.env (s0.thr i) (ks i)).1 l
  other : ∀ l, (∀ i n, ¬ (alone s0.mem s0.env (s0.thr i) n).2.2.writes l) → s.mem l = s0.mem l

/-- Steps change memory only where they write. -/
theorem advance_mem (m : Mem D) (env : Env D W S) (P : Prog D W E S α) (l : Loc) (h : ¬ P.writes l) : (advance (m, env, P)).1 l = m l := by
  cases P with
  | wr l' c k => exact set_ne _ _ _ fun he => h he.symm
  | _ => rfl

/-- The step depends on the location accessed and on the world only. -/
theorem advance_congr {m m' : Mem D} {env env' : Env D W S} {P : Prog D W E S α} (hm : ∀ l, P.at l → m l = m' l) (hw : env.w = env'.w) :
    (advance (m, env, P)).2.2 = (advance (m', env', P)).2.2 ∧ ∀ l, m l = m' l → (advance (m, env, P)).1 l = (advance (m', env', P)).1 l := by
  cases P with
  | ret a => exact ⟨rfl, fun l h => h⟩
  | rd l k => exact ⟨congrArg k (hm l rfl), fun l h => h⟩
  | wr l c k =>
    refine ⟨rfl, fun l' h => ?_⟩
    simp only [advance, Mem.set]
    split
    · rfl
    · exact h
  | call kind u args k => simp only [advance, UFn.invoke, hw]; exact ⟨trivial, fun l h => h⟩
  | cmp a b k => exact ⟨rfl, fun l h => h⟩

theorem writes_at {P : Prog D W E S α} {l : Loc} (h : P.writes l) : P.at l := by
  cases P with
  | wr l' c k => exact h
  | _ => exact h.elim

theorem Inv.tick [DecidableEq ι] {s0 s : Sys D W E S ι α} {ks : ι → Nat} (hp : ∀ i, (s0.thr i).Calls Pure) (hs : Separate s0) (h : Inv s0 ks s) (i : ι) :
    Inv s0 (fun j => ks j + if j = i then 1 else 0) (tick s i) := by
  have hw := alone_world (m := s0.mem) (env := s0.env) (hp i) (ks i)
  have hc := alone_calls (m := s0.mem) (env := s0.env) (hp i) (ks i)
  have hg := h.progs i
  have hadv : ∀ l, (alone s0.mem s0.env (s0.thr i) (ks i)).2.2.at l → s.mem l = (alone s0.mem s0.env (s0.thr i) (ks i)).1 l := fun l hl => h.mine i l ⟨_, hl⟩
  have hcong := advance_congr (m := s.mem) (m' := (alone s0.mem s0.env (s0.thr i) (ks i)).1) (env := s.env) (env' := (alone s0.mem s0.env (s0.thr i) (ks i)).2.1)
    (P := (alone s0.mem s0.env (s0.thr i) (ks i)).2.2) hadv (by rw [hw, h.world])
  refine ⟨?_, fun j => ?_, fun j l hl => ?_, fun l hl => ?_⟩
  · show (advance (s.mem, s.env, s.thr i)).2.1.w = _
    rw [hg, advance_world hc, h.world]
  · simp only [Thr.tick]
    split
    · next he => subst he; rw [hg]; exact hcong.1
    · exact h.progs j
  · show (advance (s.mem, s.env, s.thr i)).1 l = _
    rw [hg]
    by_cases hji : j = i
    · subst hji
      simp only [if_true]
      exact hcong.2 l (h.mine j l hl)
    · simp only [hji, if_false, Nat.add_zero]
      obtain ⟨n, hn⟩ := hl
      rw [advance_mem _ _ _ _ (hs j i n (ks i) l hji hn)]
      exact h.mine j l ⟨n, hn⟩
  · show (advance (s.mem, s.env, s.thr i)).1 l = _
    rw [hg, advance_mem _ _ _ _ (hl i (ks i))]
    exact h.other l hl

theorem Inv.exec [DecidableEq ι] {s0 : Sys D W E S ι α} (hp : ∀ i, (s0.thr i).Calls Pure) (hs : Separate s0) (is : List ι) : ∀ {s : Sys D W E S ι α} {ks : ι → Nat}, Inv s0 ks s →
    Inv s0 (fun j => ks j + is.count j) (exec s is) := by
  induction is with
  | nil => intro s ks h; exact h
  | cons i is ih =>
    intro s ks h
    have := ih (h.tick hp hs i)
    have he : (fun j => ks j + (i :: is).count j) = fun j => (ks j + if j = i then 1 else 0) + is.count j := by
      funext j
      rw [List.count_cons]
      by_cases hji : i = j
      · subst hji; simp; omega
      · have : j ≠ i := fun h => hji h.symm
        simp [hji, this]
    rw [he]
    exact this

/-- Threads that are separate behave as alone, in whatever order their steps are done. -/
theorem exec_separate [DecidableEq ι] {s : Sys D W E S ι α} (hp : ∀ i, (s.thr i).Calls Pure) (hs : Separate s) (is : List ι) : Inv s (fun j => is.count j) (exec s is) := by
  have h0 : Inv s (fun _ => 0) s := ⟨rfl, fun _ => rfl, fun _ _ _ => rfl, fun _ _ => rfl⟩
  simpa using h0.exec hp hs is

theorem raceFree_separate [DecidableEq ι] {s : Sys D W E S ι α} (hp : ∀ i, (s.thr i).Calls Pure) (hs : Separate s) : RaceFree s := by
  intro is ⟨i, j, l, hij, hi, hj⟩
  have h := exec_separate hp hs is
  rw [h.progs] at hi hj
  exact hs i j _ _ l hij hi hj

theorem result_separate [DecidableEq ι] {s : Sys D W E S ι α} (hp : ∀ i, (s.thr i).Calls Pure) (hs : Separate s) (is : List ι) {i : ι} {a : α} (h : (exec s is).thr i = .ret a) :
    a = ((s.thr i).run s.mem s.env).1 := by
  rw [(exec_separate hp hs is).progs] at h
  exact (alone_ret h).1

/-- Every thread ends if it is given enough steps. -/
theorem ends_separate [DecidableEq ι] {s : Sys D W E S ι α} (hp : ∀ i, (s.thr i).Calls Pure) (hs : Separate s) (i : ι) :
    ∃ N, ∀ is : List ι, N ≤ is.count i → (exec s is).thr i = .ret ((s.thr i).run s.mem s.env).1 := by
  obtain ⟨N, hN⟩ := alone_done s.mem s.env (s.thr i)
  refine ⟨N, fun is his => ?_⟩
  rw [(exec_separate hp hs is).progs, hN _ his]

theorem exec_append [DecidableEq ι] (s : Sys D W E S ι α) (is js : List ι) : exec s (is ++ js) = exec (exec s is) js := by
  induction is generalizing s with
  | nil => rfl
  | cons i is ih => exact ih _

/-- Steps of one thread only. -/
theorem exec_replicate [DecidableEq ι] (s : Sys D W E S ι α) (i : ι) (n : Nat) :
    exec s (List.replicate n i) = ⟨(alone s.mem s.env (s.thr i) n).1, (alone s.mem s.env (s.thr i) n).2.1, fun j => if j = i then (alone s.mem s.env (s.thr i) n).2.2 else s.thr j⟩ := by
  induction n generalizing s with
  | zero =>
    show s = _
    rcases s with ⟨m, env, thr⟩
    simp only [alone_zero]
    congr
    funext j
    split
    · next h => rw [h]
    · rfl
  | succ n ih =>
    show exec (tick s i) (List.replicate n i) = _
    rw [ih, alone_first]
    simp only [tick, if_true]
    congr
    funext j
    split <;> rfl

/-- Programs that only read, given what is in memory. -/
def Prog.Idle (m : Mem D) : Prog D W E S α → Prop
  | .ret _ => True
  | .rd l k => (k (m l)).Idle m
  | _ => False

theorem idle_bind {m : Mem D} {P : Prog D W E S α} {f : α → Prog D W E S β} (h : P.Idle m) (env : Env D W S) (hf : (f (P.run m env).1).Idle m) : (P.bind f).Idle m := by
  induction P with
  | ret a => exact hf
  | rd l k ih => exact ih _ h hf
  | _ => exact h.elim

theorem idle_advance {m : Mem D} {P : Prog D W E S α} (h : P.Idle m) (env : Env D W S) :
    (advance (m, env, P)).1 = m ∧ (advance (m, env, P)).2.1 = env ∧ (advance (m, env, P)).2.2.Idle m ∧ ∀ env', ((advance (m, env, P)).2.2.run m env').1 = (P.run m env').1 := by
  cases P with
  | ret a => exact ⟨rfl, rfl, h, fun _ => rfl⟩
  | rd l k => exact ⟨rfl, rfl, h, fun _ => rfl⟩
  | _ => exact h.elim

theorem idle_run {m : Mem D} {P : Prog D W E S α} (h : P.Idle m) (env : Env D W S) : (P.run m env).2 = (m, env) := by
  induction P with
  | ret a => rfl
  | rd l k ih => exact ih _ h
  | _ => exact h.elim

theorem exec_idle [DecidableEq ι] (is : List ι) : ∀ (s : Sys D W E S ι α), (∀ i, (s.thr i).Idle s.mem) →
    (exec s is).mem = s.mem ∧ (exec s is).env = s.env ∧ (∀ i, ((exec s is).thr i).Idle s.mem) ∧ ∀ i env, (((exec s is).thr i).run s.mem env).1 = ((s.thr i).run s.mem env).1 := by
  induction is with
  | nil => exact fun s h => ⟨rfl, rfl, h, fun _ _ => rfl⟩
  | cons j is ih =>
    intro s h
    obtain ⟨a1, a2, a3, a4⟩ := idle_advance (h j) s.env
    have hm : (tick s j).mem = s.mem := a1
    have ht : ∀ i, ((tick s j).thr i).Idle s.mem ∧ ∀ env, (((tick s j).thr i).run s.mem env).1 = ((s.thr i).run s.mem env).1 := by
      intro i
      simp only [tick]
      split
      · next he => subst he; exact ⟨a3, a4⟩
      · exact ⟨h i, fun _ => rfl⟩
    obtain ⟨b1, b2, b3, b4⟩ := ih (tick s j) (by rw [hm]; exact fun i => (ht i).1)
    rw [hm] at b1 b3 b4
    exact ⟨b1, b2.trans a2, b3, fun i env => (b4 i env).trans ((ht i).2 env)⟩

theorem raceFree_idle [DecidableEq ι] {s : Sys D W E S ι α} (h : ∀ i, (s.thr i).Idle s.mem) : RaceFree s := by
  intro is ⟨i, j, l, _, _, hj⟩
  have := (exec_idle is s h).2.2.1 j
  generalize (exec s is).thr j = P at this hj
  cases P with
  | wr l' c k => exact this
  | _ => exact hj

/-- Two threads with the same program race as soon as it writes anything. -/
theorem race_same [DecidableEq ι] {s : Sys D W E S ι α} {P : Prog D W E S α} (hp : P.Calls Pure) {i j : ι} (hij : i ≠ j) (hi : s.thr i = P) (hj : s.thr j = P)
    (hw : Writes s.mem s.env P) : ∃ is, Race (exec s is) := by
  -- the first write
  have hmin : ∃ n, (∃ l, (alone s.mem s.env P n).2.2.writes l) ∧ ∀ n', n' < n → ¬ ∃ l, (alone s.mem s.env P n').2.2.writes l := by
    obtain ⟨n, hn⟩ := hw
    induction n using Nat.strongRecOn with
    | _ n ih =>
      by_cases h : ∃ n', n' < n ∧ ∃ l, (alone s.mem s.env P n').2.2.writes l
      · obtain ⟨n', hn', h⟩ := h
        exact ih n' hn' h
      · exact ⟨n, hn, fun n' hn' h' => h ⟨n', hn', h'⟩⟩
  obtain ⟨n, ⟨l, hl⟩, hbefore⟩ := hmin
  have hmem : ∀ n', n' ≤ n → (alone s.mem s.env P n').1 = s.mem := by
    intro n' hn'
    induction n' with
    | zero => rfl
    | succ n' ih =>
      rw [alone_succ]
      refine Eq.trans ?_ (ih (by omega))
      funext q
      exact advance_mem _ _ _ _ fun h => hbefore n' (by omega) ⟨q, h⟩
  -- the other thread sees the same
  have hsame : ∀ (env : Env D W S), env.w = s.env.w → ∀ n', n' ≤ n → (alone s.mem env P n').2.2 = (alone s.mem s.env P n').2.2 ∧ (alone s.mem env P n').1 = s.mem := by
    intro env he n' hn'
    induction n' with
    | zero => exact ⟨rfl, rfl⟩
    | succ n' ih =>
      obtain ⟨h1, h2⟩ := ih (by omega)
      have hm := hmem n' (by omega)
      have hm' := hmem (n' + 1) hn'
      have w1 := alone_world (m := s.mem) (env := env) hp n'
      have w2 := alone_world (m := s.mem) (env := s.env) hp n'
      rw [alone_succ] at hm' ⊢
      rw [alone_succ]
      generalize alone s.mem env P n' = x at h1 h2 w1 ⊢
      generalize alone s.mem s.env P n' = y at h1 hm hm' w2 ⊢
      obtain ⟨x1, x2, x3⟩ := x
      obtain ⟨y1, y2, y3⟩ := y
      simp only at h1 h2 hm w1 w2
      subst h1
      have hc := advance_congr (m := x1) (m' := y1) (env := x2) (env' := y2) (P := x3) (fun l _ => by rw [h2, hm]) (by rw [w1, w2, he])
      refine ⟨hc.1, ?_⟩
      rw [← hm']
      funext q
      exact hc.2 q (by rw [h2, hm])
  refine ⟨List.replicate n i ++ List.replicate n j, i, j, l, hij, ?_, ?_⟩
  · rw [exec_append, exec_replicate, exec_replicate]
    simp only [hij, if_false, if_true, hi]
    exact writes_at hl
  · rw [exec_append, exec_replicate, exec_replicate]
    have hji : j ≠ i := fun h => hij h.symm
    simp only [hji, if_false, if_true, hi, hj]
    rw [hmem n (Nat.le_refl n), (hsame _ (alone_world hp n) n (Nat.le_refl n)).1]
    exact hl

end Pigro.Thr
