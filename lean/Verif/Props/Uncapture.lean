import Verif.Model.Uncapture
/-!
# C46, C47: uncapture
-/
namespace Pigro.Unc
variable {T V R S : Type}

/-! ### C46 -/

/-- Layers of uncaptured values around a callable, outermost first. -/
def layers (vss : List (List (Uncaptured T V))) (f : Cal T V R S) : Cal T V R S :=
  vss.foldr (fun vs g => (uncaptured vs).shift g) f

/-- The values stored in a chain, outermost first. -/
def Cal.values : Cal T V R S → List V
  | .fn _ _ => []
  | .ci _ u f => u.value :: f.values

/-- The user callable at the end of a chain. -/
def Cal.core : Cal T V R S → Code V R S × S
  | .fn code st => (code, st)
  | .ci _ _ f => f.core

theorem uncaptured_shift (vs : List (Uncaptured T V)) (f : Cal T V R S) :
    (uncaptured vs).shift f = shiftAll vs f := by
  rcases vs with _ | ⟨u, _ | ⟨u', us⟩⟩ <;> rfl

theorem shiftAll_values (vs : List (Uncaptured T V)) (f : Cal T V R S) :
    (shiftAll vs f).values = vs.map (·.value) ++ f.values := by
  induction vs with
  | nil => rfl
  | cons u us ih => simp [shiftAll, shift, Cal.values, ih]

theorem shiftAll_core (vs : List (Uncaptured T V)) (f : Cal T V R S) :
    (shiftAll vs f).core = f.core := by
  induction vs with
  | nil => rfl
  | cons u us ih => simp [shiftAll, shift, Cal.core, ih]

theorem layers_values (vss : List (List (Uncaptured T V))) (f : Cal T V R S) :
    (layers vss f).values = (vss.flatten).map (·.value) ++ f.values ∧ (layers vss f).core = f.core := by
  induction vss with
  | nil => simp [layers]
  | cons vs vss ih =>
    simp only [layers, List.foldr_cons] at ih ⊢
    rw [uncaptured_shift, shiftAll_values, shiftAll_core, ih.1, ih.2]
    simp

theorem call_values (f : Cal T V R S) : ∀ args : List V,
    (f.call args).1 = (f.core.1.run f.core.2 (args ++ f.values)).1 ∧
    (f.call args).2.2 = (f.core.1.run f.core.2 (args ++ f.values)).2.2 ∧
    (f.call args).2.1.core = (f.core.1, (f.core.1.run f.core.2 (args ++ f.values)).2.1) ∧
    f.callConst args = f.core.1.runConst f.core.2 (args ++ f.values) := by
  induction f with
  | fn code st => intro args; simp [Cal.call, Cal.callConst, Cal.core, Cal.values]
  | ci tag u f ih =>
    intro args
    have := ih (args ++ [u.value])
    simpa [Cal.call, Cal.callConst, Cal.core, Cal.values] using this

/-- **C46.** Calling any nesting of `uncaptured(v1, ..., vn) >> ...` around a user callable calls it once,
with the call arguments followed by all values, outermost layer first; result, arguments and the callable's
own state afterwards are those of that call. The same for a const call. Without values it is the callable. -/
theorem C46_values_appended (vss : List (List (Uncaptured T V))) (code : Code V R S) (st : S)
    (args : List V) :
    let f := layers vss (.fn code st)
    let r := code.run st (args ++ (vss.flatten).map (·.value))
    (f.call args).1 = r.1 ∧ (f.call args).2.2 = r.2.2 ∧ (f.call args).2.1.core = (code, r.2.1) ∧
    f.callConst args = code.runConst st (args ++ (vss.flatten).map (·.value)) ∧
    (uncaptured ([] : List (Uncaptured T V))).shift f = f := by
  intro f r
  have hv := (layers_values vss (.fn code st : Cal T V R S)).1
  have hc := (layers_values vss (.fn code st : Cal T V R S)).2
  have h := call_values f args
  simp only [f, hv, hc, Cal.values, Cal.core, List.append_nil] at h
  exact ⟨h.1, h.2.1, h.2.2.1, h.2.2.2, rfl⟩

/-- `(uncaptured(10, 20) >> (uncaptured(30) >> f))(1)` calls `f(1, 10, 20, 30)`. -/
example : ((layers [[⟨(), false, 10⟩, ⟨(), false, 20⟩], [⟨(), false, 30⟩]]
      (.fn ⟨fun s as => (as, s + 1, fun _ => 0), fun _ as => as⟩ 0) : Cal Unit Nat (List Nat) Nat).call
      [1]).1 = [1, 10, 20, 30] :=
  (C46_values_appended _ _ _ _).1

/-- What a chain passes next time: value `i` is what the last call left there, if not of empty type. -/
def leftBy (out : Nat → V) : Nat → List (Uncaptured T V) → List V
  | _, [] => []
  | i, u :: us => (if u.isEmpty then u.value else out i) :: leftBy out (i + 1) us

/-- The uncaptured values of a chain, outermost first. -/
def Cal.store : Cal T V R S → List (Uncaptured T V)
  | .fn _ _ => []
  | .ci _ u f => u :: f.store

theorem call_store (f : Cal T V R S) : ∀ args : List V,
    (f.call args).2.1.values = leftBy (f.call args).2.2 args.length f.store := by
  induction f with
  | fn code st => intro args; rfl
  | ci tag u f ih =>
    intro args
    have := ih (args ++ [u.value])
    simp only [Cal.call, Cal.values, Cal.store, leftBy, List.length_append, List.length_cons,
      List.length_nil] at this ⊢
    rw [this]
    cases u.isEmpty <;> simp

theorem layers_store (vss : List (List (Uncaptured T V))) (code : Code V R S) (st : S) :
    (layers vss (.fn code st)).store = vss.flatten := by
  have h : ∀ (vs : List (Uncaptured T V)) (f : Cal T V R S),
      (shiftAll vs f).store = vs ++ f.store := by
    intro vs f
    induction vs with
    | nil => rfl
    | cons u us ih => simp [shiftAll, shift, Cal.store, ih]
  induction vss with
  | nil => rfl
  | cons vs vss ih =>
    simp only [layers, List.foldr_cons] at ih ⊢
    rw [uncaptured_shift, h, ih]
    simp

/-- **C46**, stored values are passed by reference: after a (non-const) call, the values the next call will
pass are those the callable left in its parameters; values of empty type are rebuilt. -/
theorem C46_values_by_reference (vss : List (List (Uncaptured T V))) (code : Code V R S) (st : S)
    (args : List V) :
    let f := layers vss (.fn code st)
    (f.call args).2.1.values =
      leftBy (code.run st (args ++ (vss.flatten).map (·.value))).2.2 args.length vss.flatten := by
  intro f
  have h := call_store f args
  rw [(C46_values_appended vss code st args).2.1] at h
  rw [h, layers_store]

/-- A counter kept in an uncaptured value: second call sees the increment. -/
example : let code : Code Nat Nat Unit :=
        ⟨fun _ as => (as.getD 0 0, (), fun i => as.getD i 0 + 1), fun _ _ => 0⟩
    let f : Cal Unit Nat Nat Unit := layers [[⟨(), false, 5⟩]] (.fn code ())
    (f.call []).1 = 5 ∧ ((f.call []).2.1.call []).1 = 6 := ⟨rfl, rfl⟩

/-! ### C47 -/

/-- Layers of uncaptured values of the given types around a class. -/
def CTy.layers (tss : List (List T)) (f : CTy T) : CTy T :=
  tss.foldr (fun ts g => CTy.shiftAll ts g) f

theorem CTy.layers_eq (tss : List (List T)) (f : CTy T) :
    CTy.layers tss f = CTy.shiftAll tss.flatten f := by
  have happ : ∀ (as bs : List T) (f : CTy T),
      CTy.shiftAll (as ++ bs) f = CTy.shiftAll as (CTy.shiftAll bs f) := by
    intro as bs f
    induction as with
    | nil => rfl
    | cons a as ih => simp [CTy.shiftAll, ih]
  induction tss with
  | nil => rfl
  | cons ts tss ih =>
    simp only [CTy.layers, List.foldr_cons, List.flatten_cons] at ih ⊢
    rw [ih, happ]

theorem CTy.shiftAll_tags (ts : List T) (bases : List (CTy T)) :
    (CTy.shiftAll ts (.user bases)).uniqueTag = ts.length ∧
    ∃ own, (CTy.shiftAll ts (.user bases)).storage = own ++ (CTy.user bases).storage ∧
      own.map (·.1) = ts ∧ own.Pairwise (fun a b => b.2 < a.2) ∧
      ∀ a ∈ own, 0 < a.2 ∧ a.2 ≤ ts.length := by
  induction ts with
  | nil => exact ⟨rfl, [], rfl, rfl, .nil, by simp⟩
  | cons t ts ih =>
    obtain ⟨h1, own, h2, h3, h4, h5⟩ := ih
    refine ⟨congrArg (· + 1) h1, (t, ts.length + 1) :: own, ?_, ?_, ?_, ?_⟩
    · simp [CTy.shiftAll, CTy.shift, CTy.storage, h1, h2]
    · simp [h3]
    · exact .cons (by intro a ha; have := (h5 a ha).2; simp; omega) h4
    · intro a ha
      rcases List.mem_cons.1 ha with rfl | ha
      · simp
      · have := h5 a ha; simp only [List.length_cons]; omega

/-- **C47** (partial: the callable has no uncaptured storage among its own bases). In any nesting of
uncaptured values around a callable, all storage base classes are pairwise distinct, whatever the
types; there is one per value, in order. -/
theorem C47_storage_distinct_partial (tss : List (List T)) (bases : List (CTy T))
    (hb : (CTy.user bases).storage = []) :
    let c := CTy.layers tss (.user bases)
    c.storage.Nodup ∧ c.storage.map (·.1) = tss.flatten := by
  intro c
  obtain ⟨-, own, h2, h3, h4, -⟩ := CTy.shiftAll_tags tss.flatten bases
  have : c.storage = own := by
    simp only [c, CTy.layers_eq, h2, hb, List.append_nil]
  rw [this]
  refine ⟨h4.imp ?_, h3⟩
  intro a b hab he
  subst he
  exact absurd hab (Nat.lt_irrefl _)

/-- Three `int`s around a lambda. -/
example : (CTy.layers [["int"], ["int", "int"]] (.user [])).storage =
    [("int", 3), ("int", 2), ("int", 1)] ∧
    (CTy.layers [["int"], ["int", "int"]] (.user [])).storage.Nodup :=
  ⟨by simp [CTy.layers, CTy.shiftAll, CTy.shift, CTy.uniqueTag, CTy.storage],
   (C47_storage_distinct_partial _ [] (by simp [CTy.storage])).1⟩

/-- **C47 is false** for a callable that derives from an uncaptured one (as `overload` and `recursive` do):
the tag starts at 1 again, so a value of the same type collides, for every type and every class. -/
theorem C47_wrapped_collides (ty : T) (others : List (CTy T)) :
    ¬ (CTy.shift ty (.user (CTy.shift ty (.user []) :: others))).storage.Nodup := by
  simp [CTy.shift, CTy.uniqueTag, CTy.storage]

example : ¬ (CTy.shift "int" (.user [CTy.shift "int" (.user [])])).storage.Nodup :=
  C47_wrapped_collides "int" []

/-- The class of a callable object; `user`: that of the callable at the end of the chain. -/
def Cal.cty (user : CTy T) : Cal T V R S → CTy T
  | .fn _ _ => user
  | .ci tag u f => .ci tag u.ty (f.cty user)

/-- **C47, objects**: what the operators return is an object of the class whose bases C47 is about; tags included, for any nesting; and calls do not
change that. -/
theorem C47_class_of (vss : List (List (Uncaptured T V))) (code : Code V R S) (st : S) (bases : List (CTy T)) (args : List V) :
    (layers vss (.fn code st)).cty (.user bases) = CTy.layers (vss.map (·.map (·.ty))) (.user bases) ∧
    ((layers vss (.fn code st)).call args).2.1.cty (.user bases) = CTy.layers (vss.map (·.map (·.ty))) (.user bases) := by
  have htag : ∀ f : Cal T V R S, f.uniqueTag = (f.cty (.user bases)).uniqueTag := by
    intro f; cases f <;> rfl
  have hall : ∀ (vs : List (Uncaptured T V)) (f : Cal T V R S), (shiftAll vs f).cty (.user bases) = CTy.shiftAll (vs.map (·.ty)) (f.cty (.user bases)) := by
    intro vs f
    induction vs with
    | nil => rfl
    | cons u us ih => simp [shiftAll, shift, Cal.cty, CTy.shiftAll, CTy.shift, ← ih, htag]
  have hcall : ∀ (f : Cal T V R S) (args : List V), (f.call args).2.1.cty (.user bases) = f.cty (.user bases) := by
    intro f
    induction f with
    | fn code st => intro args; rfl
    | ci tag u f ih => intro args; simp only [Cal.call, Cal.cty, ih]; split <;> rfl
  have h : (layers vss (.fn code st)).cty (.user bases) = CTy.layers (vss.map (·.map (·.ty))) (.user bases) := by
    induction vss with
    | nil => rfl
    | cons vs vss ih =>
      simp only [layers, List.foldr_cons, List.map_cons, CTy.layers] at ih ⊢
      rw [uncaptured_shift, hall, ih]
  exact ⟨h, by rw [hcall]; exact h⟩

/-- Two values and one: tags 3, 2, 1. -/
example : (layers [[⟨"int", false, 1⟩, ⟨"int", false, 2⟩], [⟨"int", false, 3⟩]] (.fn ⟨fun _ as => (as.sum, (), fun _ => 0), fun _ as => as.sum⟩ ()) :
    Cal String Nat Nat Unit).cty (.user []) = .ci 3 "int" (.ci 2 "int" (.ci 1 "int" (.user []))) :=
  (C47_class_of _ _ _ [] []).1

end Pigro.Unc
