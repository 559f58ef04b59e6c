import Verif.Model.LazyMake
/-!
# What a client sees
-/
namespace Pigro.LM
variable {D W E S : Type}

/-- What a client sees of an outcome of `Model/History.lean`. -/
def seen : Obs D E → Seen D E
  | .unit => .unit
  | .ret o => .ret o
  | .polled o => .polled (o.map fun r => (if r.live then some r.value else none, r.isChanged))
  | .invalid => .invalid

/-- The callables `us` and the values `vs` are of empty type, each of its own; nothing else is. -/
noncomputable def Empties.only (us : List (UFn D W E S)) (vs : List (Val D)) : Empties D W E S :=
  have one {α : Type} (x : α) (xs : List α) (k : Nat) (h : xs.findIdx? (fun y => @decide (x = y) (Classical.propDecidable _)) = some k) :
      xs[k]? = some x := by
    obtain ⟨hk, h1, -⟩ := List.findIdx?_eq_some_iff_getElem.1 h
    rw [List.getElem?_eq_getElem hk]
    exact congrArg some (@of_decide_eq_true _ (Classical.propDecidable _) h1).symm
  { fn := fun u => us.findIdx? fun y => @decide (u = y) (Classical.propDecidable _)
    val := fun v => vs.findIdx? fun y => @decide (v = y) (Classical.propDecidable _)
    fnOf := fun k => us[k]?
    valOf := fun k => vs[k]?
    fn_one := fun u k h => one u us k h
    val_one := fun v k h => one v vs k h }

/-- Nothing of `m` has changed in `m'`: neither a value nor whether an object exists. There may be new objects, and the world may differ. -/
def Untouched (m m' : LMem D W E S) : Prop := ∀ a < m.next, m'.get a = m.get a ∧ m'.alive a = m.alive a

end Pigro.LM
