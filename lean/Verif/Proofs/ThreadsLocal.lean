import Verif.Proofs.Threads
/-!
# Calls of copies; which locations and functions a call uses
-/
namespace Pigro.Thr
variable {D W E S α β ι : Type}

mutual
theorem copy_run : ∀ (o : Obj D W E S) (p : Loc) (m : Mem D) (env : Env D W S), (copy p o).run m env = (load m p o, m, env)
  | .lazyValue _ _, _, _, _ => rfl
  | .core f c deps, p, m, env => by rw [copy, Prog.run, run_bind, copyDeps_run deps, load]; rfl
  | .unwrapped inner, p, m, env => by rw [copy, run_bind, copy_run inner, load]; rfl
  | .unregularized inner, p, m, env => by rw [copy, run_bind, copy_run inner, load]; rfl
theorem copyDeps_run : ∀ (ds : List (Obj D W E S)) (p : Loc) (i : Nat) (m : Mem D) (env : Env D W S), (copyDeps p i ds).run m env = (loadDeps m p i ds, m, env)
  | [], _, _, _, _ => rfl
  | d :: ds, p, i, m, env => by rw [copyDeps, run_bind, copy_run d, run_bind, copyDeps_run ds, loadDeps]; rfl
end

theorem tailL_run [CxxData D] (g : Glue) (f : Fun D W E S) (c : Cache D) (rs : List (LazyRes D)) (m : Mem D) (env : Env D W S) :
    (tailL g f c rs).run m env = ((Pigro.coreTail g f c rs env).1, m, (Pigro.coreTail g f c rs env).2.2.2) := by
  simp only [tailL, Pigro.coreTail]
  cases !c.engaged || any LazyRes.isChanged rs with
  | false =>
    simp only [Bool.false_eq_true, if_false]
    rcases c.deref with _ | v <;> rfl
  | true =>
    simp only [if_true]
    rcases readValues rs with _ | vs
    · rfl
    · simp only [run_bind, callFun_run g]
      rcases f.call g vs env with ⟨o, f', env'⟩
      rcases o with result | e | _ | _
      · obtain ⟨v, hv⟩ := deref_assign c result
        simp only [compare_run, hv, Prog.run]
      all_goals rfl

mutual
theorem evalL_run [CxxData D] (g : Glue) : ∀ (o : Obj D W E S) (m : Mem D) (env : Env D W S), (evalL g o).run m env = ((evalN g o env).1, m, (evalN g o env).2.2)
  | .lazyValue _ _, _, _ => rfl
  | .core f c deps, m, env => by
    rw [evalL, run_bind, depsL_run g deps, evalN]
    rcases evalDeps g deps env with ⟨o, deps', env1⟩
    rcases o with rs | e | _ | _
    · simp only [tailL_run]
    all_goals rfl
  | .unwrapped inner, m, env => by rw [evalL, run_bind, evalL_run g inner, evalN]; rfl
  | .unregularized inner, m, env => by rw [evalL, run_bind, evalL_run g inner, evalN]; rfl
theorem depsL_run [CxxData D] (g : Glue) : ∀ (ds : List (Obj D W E S)) (m : Mem D) (env : Env D W S), (depsL g ds).run m env = ((evalDeps g ds env).1, m, (evalDeps g ds env).2.2)
  | [], _, _ => rfl
  | d :: ds, m, env => by
    rw [depsL, run_bind, evalL_run g d, evalDeps]
    rcases evalN g d env with ⟨o, d', env1⟩
    rcases o with r | e | _ | _
    · simp only [run_bind, depsL_run g ds]; rfl
    all_goals rfl
end

theorem callL_run [CxxData D] (g : Glue) : ∀ (o : Obj D W E S) (m : Mem D) (env : Env D W S), (callL g o).run m env = ((call0 g o env).1, m, (call0 g o env).2.2)
  | .lazyValue _ _, _, _ => rfl
  | .core _ _ _, _, _ => rfl
  | .unwrapped inner, m, env => by
    rw [callL, run_bind, evalL_run, call0, evalN]
    rcases evalN g inner env with ⟨o, o', env'⟩
    rcases o with r | e | _ | _ <;> rfl
  | .unregularized inner, m, env => by
    rw [callL, run_bind, callL_run g inner, call0]; rfl

theorem callV_run [CxxData D] {g : Glue} (hg : g.facadeParamByValue = true) (inner : Obj D W E S) (p : Loc) (m : Mem D) (env : Env D W S) (hT : SameRV m p inner) :
    call0 g (load m p (.unregularized inner)) env =
      (((callV g p (.unregularized inner)).run m env).1, load m p (.unregularized inner), ((callV g p (.unregularized inner)).run m env).2.2) ∧
      ((callV g p (.unregularized inner)).run m env).2.1 = m := by
  rw [load, call0, callV, run_bind, copy_run, run_bind, callL_run, hT]
  exact ⟨by simp [Prog.run, keep, hg], rfl⟩

/-- Whatever is read and returned: only locations in `R` are read, only locations in `Wr` are written, only functions in `Q` are called, and the result is in `Post`. -/
def Prog.Inside (R Wr : Loc → Prop) (Q : UFn D W E S → Prop) (Post : α → Prop) : Prog D W E S α → Prop
  | .ret a => Post a
  | .rd l k => R l ∧ ∀ c, (k c).Inside R Wr Q Post
  | .wr l _ k => Wr l ∧ k.Inside R Wr Q Post
  | .call _ u _ k => Q u ∧ ∀ r, (k r).Inside R Wr Q Post
  | .cmp _ _ k => k.Inside R Wr Q Post

theorem Prog.Inside.bind {R Wr : Loc → Prop} {Q : UFn D W E S → Prop} {Post : α → Prop} {Post' : β → Prop} {P : Prog D W E S α} {f : α → Prog D W E S β} (h : P.Inside R Wr Q Post)
    (hf : ∀ a, Post a → (f a).Inside R Wr Q Post') : (P.bind f).Inside R Wr Q Post' := by
  induction P with
  | ret a => exact hf a h
  | rd l k ih => exact ⟨h.1, fun c => ih c (h.2 c)⟩
  | wr l c k ih => exact ⟨h.1, ih h.2⟩
  | call kind u args k ih => exact ⟨h.1, fun r => ih r (h.2 r)⟩
  | cmp a b k ih => exact ih h

theorem Prog.Inside.mono {R R' Wr Wr' : Loc → Prop} {Q Q' : UFn D W E S → Prop} {Post Post' : α → Prop} {P : Prog D W E S α} (h : P.Inside R Wr Q Post) (hR : ∀ l, R l → R' l)
    (hW : ∀ l, Wr l → Wr' l) (hQ : ∀ u, Q u → Q' u) (hP : ∀ a, Post a → Post' a) : P.Inside R' Wr' Q' Post' := by
  induction P with
  | ret a => exact hP a h
  | rd l k ih => exact ⟨hR l h.1, fun c => ih c (h.2 c)⟩
  | wr l c k ih => exact ⟨hW l h.1, ih h.2⟩
  | call kind u args k ih => exact ⟨hQ u h.1, fun r => ih r (h.2 r)⟩
  | cmp a b k ih => exact ih h

/-- Where a result may refer to. -/
def RefIn (R : Loc → Prop) (r : Ref D) : Prop := ∀ l, r.src = .inr l → R l

theorem readRef_inside {R Wr : Loc → Prop} {Q : UFn D W E S → Prop} {r : Ref D} (h : RefIn R r) : (readRef r : Prog D W E S _).Inside R Wr Q fun _ => True := by
  unfold readRef
  rcases hr : r.src with v | l
  · trivial
  · exact ⟨h l hr, fun _ => trivial⟩

theorem readRefs_inside {R Wr : Loc → Prop} {Q : UFn D W E S → Prop} {rs : List (Ref D)} (h : ∀ r ∈ rs, RefIn R r) : (readRefs rs : Prog D W E S _).Inside R Wr Q fun _ => True := by
  induction rs with
  | nil => trivial
  | cons r rs ih =>
    exact (readRef_inside (h r List.mem_cons_self)).bind fun _ _ => (ih fun r hr => h r (List.mem_cons_of_mem _ hr)).bind fun _ _ => trivial

theorem callFun_inside {R Wr : Loc → Prop} {Q : UFn D W E S → Prop} {f : Fun D W E S} (h : Q (fnOf f)) (args : List (Val D)) : (callFun f args).Inside R Wr Q fun _ => True := by
  rcases f with u | u <;> exact ⟨h, fun r => by rcases r with e | v <;> trivial⟩

theorem compare_inside {R Wr : Loc → Prop} {Q : UFn D W E S → Prop} {Post : α → Prop} {k : Prog D W E S α} (c : Cache D) (r : Val D) (h : k.Inside R Wr Q Post) :
    (compare c r k).Inside R Wr Q Post := by
  rcases c with (_ | v) | o <;> exact h

/-- Where the value of a result may be. -/
def OutIn (R : Loc → Prop) : Out E (Ref D) → Prop
  | .ok r => RefIn R r
  | _ => True

/-- Where values of results may be. -/
def OutsIn (R : Loc → Prop) : Out E (List (Ref D)) → Prop
  | .ok rs => ∀ r ∈ rs, RefIn R r
  | _ => True

theorem finish_inside {R Wr : Loc → Prop} {Q : UFn D W E S → Prop} (g : Glue) {p : Loc} (h : R p) (ch : Bool) : (finish g p ch : Prog D W E S _).Inside R Wr Q (OutIn R) := by
  refine ⟨h, fun c => ?_⟩
  simp only
  rcases c.deref with _ | v
  · trivial
  · intro l hl
    simp only at hl
    split at hl
    · injection hl with hl; exact hl ▸ h
    · cases hl

theorem coreTail_inside [CxxData D] {R Wr : Loc → Prop} {Q : UFn D W E S → Prop} (g : Glue) {p : Loc} (hR : R p) (hW : Wr p) {f : Fun D W E S} (hf : Q (fnOf f)) {rs : List (Ref D)}
    (h : ∀ r ∈ rs, RefIn R r) : (coreTail g p f rs).Inside R Wr Q (OutIn R) := by
  refine ⟨hR, fun c0 => ?_⟩
  simp only
  split
  · split
    · refine (readRefs_inside h).bind fun vs _ => (callFun_inside hf _).bind fun o _ => ?_
      rcases o with r | e | _ | _
      · exact ⟨hR, fun c1 => compare_inside _ _ ⟨hR, fun c2 => ⟨hW, finish_inside g hR _⟩⟩⟩
      all_goals trivial
    · trivial
  · exact finish_inside g hR _

mutual
theorem evalR_inside [CxxData D] (g : Glue) : ∀ (o : Obj D W E S) (p : Loc), (evalR g p o).Inside (p <:+ ·) (p <:+ ·) (· ∈ fns o) (OutIn (p <:+ ·))
  | .lazyValue _ _, _ => by intro l hl; cases hl
  | .core f c deps, p => by
    have h := depsR_inside g deps p 0
    rw [evalR]
    refine (h.mono (fun l hl => hl) (fun l hl => hl) (Q' := (· ∈ fns (.core f c deps))) (fun u hu => by rw [fns]; exact List.mem_cons_of_mem _ (by simpa using hu)) fun _ h => h).bind fun o ho => ?_
    rcases o with rs | e | _ | _
    · exact coreTail_inside g (List.suffix_refl p) (List.suffix_refl p) (by rw [fns]; exact List.mem_cons_self) ho
    all_goals trivial
  | .unwrapped inner, p => by rw [evalR, fns]; exact evalR_inside g inner p
  | .unregularized inner, p => by rw [evalR, fns]; exact evalR_inside g inner p
theorem depsR_inside [CxxData D] (g : Glue) : ∀ (ds : List (Obj D W E S)) (p : Loc) (i : Nat), (depsR g p i ds).Inside (p <:+ ·) (p <:+ ·) (· ∈ (ds.map fns).flatten) (OutsIn (p <:+ ·))
  | [], _, _ => by intro r hr; cases hr
  | d :: ds, p, i => by
    rw [depsR]
    refine ((evalR_inside g d (i :: p)).mono (fun l => suffix_of_cons) (fun l => suffix_of_cons) (fun u hu => by simp [hu]) fun o ho => ?_ : Prog.Inside _ _ _ (OutIn (p <:+ ·)) _).bind fun o ho => ?_
    · rcases o with r | e | _ | _
      · exact fun l hl => suffix_of_cons (ho l hl)
      all_goals trivial
    · rcases o with r | e | _ | _
      · refine ((depsR_inside g ds p (i + 1)).mono (fun l h => h) (fun l h => h) (fun u hu => by simp only [List.map_cons, List.flatten_cons, List.mem_append]; exact Or.inr hu)
          fun o ho => ho).bind fun o' ho' => ?_
        rcases o' with rs | e | _ | _
        · intro r' hr'
          rcases List.mem_cons.1 hr' with rfl | hr'
          · exact ho
          · exact ho' r' hr'
        all_goals trivial
      all_goals trivial
end

theorem callR_inside [CxxData D] (g : Glue) : ∀ (o : Obj D W E S) (p : Loc), (callR g p o).Inside (p <:+ ·) (p <:+ ·) (· ∈ fns o) fun _ => True
  | .lazyValue _ _, _ => trivial
  | .core _ _ _, _ => trivial
  | .unwrapped inner, p => by
    rw [callR, fns]
    refine (evalR_inside g inner p).bind fun o ho => ?_
    rcases o with r | e | _ | _
    · simp only
      split
      · exact (readRef_inside ho).bind fun _ _ => trivial
      · trivial
    all_goals trivial
  | .unregularized inner, p => by
    rw [callR, fns]
    exact (callR_inside g inner p).bind fun _ _ => trivial

mutual
theorem copy_inside : ∀ (o : Obj D W E S) (p : Loc), (copy p o).Inside (p <:+ ·) (fun _ => False) (fun _ => False) fun o' => fns o' = fns o
  | .lazyValue _ _, _ => rfl
  | .core f c deps, p => by
    rw [copy]
    refine ⟨List.suffix_refl p, fun c => (copyDeps_inside deps p 0).bind fun ds h => ?_⟩
    show fns _ = fns _
    rw [fns, fns, h]
  | .unwrapped inner, p => by
    rw [copy]
    refine (copy_inside inner p).bind fun o h => ?_
    show fns _ = fns _
    rw [fns, fns, h]
  | .unregularized inner, p => by
    rw [copy]
    refine (copy_inside inner p).bind fun o h => ?_
    show fns _ = fns _
    rw [fns, fns, h]
theorem copyDeps_inside : ∀ (ds : List (Obj D W E S)) (p : Loc) (i : Nat), (copyDeps p i ds).Inside (p <:+ ·) (fun _ => False) (fun _ => False) fun ds' => ds'.map fns = ds.map fns
  | [], _, _ => rfl
  | d :: ds, p, i => by
    rw [copyDeps]
    refine ((copy_inside d (i :: p)).mono (fun l => suffix_of_cons) (fun _ h => h) (fun _ h => h) fun _ h => h).bind fun d' hd => (copyDeps_inside ds p (i + 1)).bind fun ds' hds => ?_
    show List.map fns _ = List.map fns _
    simp [hd, hds]
end

mutual
theorem evalL_inside [CxxData D] (g : Glue) : ∀ o : Obj D W E S, (evalL g o).Inside (fun _ => False) (fun _ => False) (· ∈ fns o) fun _ => True
  | .lazyValue _ _ => trivial
  | .core f c deps => by
    have h := depsL_inside g deps
    rw [evalL]
    refine (h.mono (fun l hl => hl) (fun l hl => hl) (Q' := (· ∈ fns (.core f c deps))) (fun u hu => by rw [fns]; exact List.mem_cons_of_mem _ (by simpa using hu)) fun _ h => h).bind fun o ho => ?_
    rcases o with rs | e | _ | _
    · simp only [tailL]
      split
      · split
        · trivial
        · refine (callFun_inside (by rw [fns]; exact List.mem_cons_self) _).bind fun o _ => ?_
          rcases o with r | e | _ | _
          · refine compare_inside _ _ ?_
            split <;> trivial
          all_goals trivial
      · split <;> trivial
    all_goals trivial
  | .unwrapped inner => by rw [evalL, fns]; exact (evalL_inside g inner).bind fun _ _ => trivial
  | .unregularized inner => by rw [evalL, fns]; exact (evalL_inside g inner).bind fun _ _ => trivial
theorem depsL_inside [CxxData D] (g : Glue) : ∀ ds : List (Obj D W E S), (depsL g ds).Inside (fun _ => False) (fun _ => False) (· ∈ (ds.map fns).flatten) fun _ => True
  | [] => trivial
  | d :: ds => by
    rw [depsL]
    refine ((evalL_inside g d).mono (fun _ h => h) (fun _ h => h) (fun u hu => by simp [hu]) fun _ h => h).bind fun o ho => ?_
    rcases o with r | e | _ | _
    · exact ((depsL_inside g ds).mono (fun l h => h) (fun l h => h) (fun u hu => by simp only [List.map_cons, List.flatten_cons, List.mem_append]; exact Or.inr hu)
        fun o ho => ho).bind fun _ _ => trivial
    all_goals trivial
end

theorem callL_inside [CxxData D] (g : Glue) : ∀ o : Obj D W E S, (callL g o).Inside (fun _ => False) (fun _ => False) (· ∈ fns o) fun _ => True
  | .lazyValue _ _ => trivial
  | .core _ _ _ => trivial
  | .unwrapped inner => by rw [callL, fns]; exact (evalL_inside g inner).bind fun _ _ => trivial
  | .unregularized inner => by rw [callL, fns]; exact (callL_inside g inner).bind fun _ _ => trivial

theorem callV_inside [CxxData D] (g : Glue) : ∀ (o : Obj D W E S) (p : Loc), (callV g p o).Inside (p <:+ ·) (fun _ => False) (· ∈ fns o) fun _ => True
  | .lazyValue _ _, _ => trivial
  | .core _ _ _, _ => trivial
  | .unwrapped _, _ => trivial
  | .unregularized inner, p => by
    rw [callV, fns]
    refine ((copy_inside inner p).mono (fun _ h => h) (fun _ h => h) (fun _ h => h.elim) fun _ h => h).bind fun o ho => ?_
    refine ((callL_inside g o).mono (fun _ h => h.elim) (fun _ h => h) (fun u hu => ho ▸ hu) fun _ h => h).bind fun _ _ => trivial

end Pigro.Thr
