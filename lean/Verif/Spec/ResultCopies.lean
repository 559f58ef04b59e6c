import Verif.Model.ResultCopies
/-!
# Specification: how often results are copied
-/
namespace Pigro.Res
variable {D W E S : Type}

/-- What is copied weighs. -/
def copied (w : Val D → Nat) (l : List (Cp D)) : Nat := ((l.filter fun c => !c.move).map fun c => w c.v).sum

/-- What is moved weighs. -/
def moved (w : Val D → Nat) (l : List (Cp D)) : Nat := ((l.filter fun c => c.move).map fun c => w c.v).sum

/-- The members of the `LazyResult`s made weigh. -/
def results (w : Val D → Nat) (l : List (Cp D)) : Nat := ((l.filter fun c => decide (c.place = .result)).map fun c => w c.v).sum

/-- A sum over all constants and caches of an object. -/
def Obj.total (val : Val D → Nat) (core : Cache D → Nat) : Obj D W E S → Nat
  | .lazyValue v _ => val v
  | .core _ cache deps => core cache + (deps.map (Obj.total val core)).sum
  | .unwrapped inner => Obj.total val core inner
  | .unregularized inner => Obj.total val core inner

/-- What a cache holds weighs. -/
def cacheWeight (w : Val D → Nat) (cache : Cache D) : Nat :=
  match cache.deref with
  | some v => w v
  | none => 0

/-- All constants and cached results weigh together. -/
def held (w : Val D → Nat) (o : Obj D W E S) : Nat := Obj.total w (cacheWeight w) o

/-- The constants weigh together. -/
def constants (w : Val D → Nat) (o : Obj D W E S) : Nat := Obj.total w (fun _ => 0) o

/-- The number of constants and of functions with a result other than void. -/
def nodes (o : Obj D W E S) : Nat := Obj.total (fun _ => 1) (fun c => match c with | .opt _ => 1 | .rv _ => 0) o

/-- No function has been calculated. -/
def unset (o : Obj D W E S) : Prop := Obj.total (fun _ => 0) (fun c => if c.engaged then 1 else 0) o = 0

/-- What a call returned weighs. -/
def outWeight (w : Val D → Nat) : Option (Val D) → Nat
  | some v => w v
  | none => 0

/-- `void` weighs nothing; a tuple what its elements weigh. -/
structure Additive (w : Val D → Nat) : Prop where
  rvoid : w .rvoid = 0
  tup : ∀ vs, w (.tup vs) = (vs.map w).sum

end Pigro.Res
