import Verif.Model.BindChain
/-!
# Specification of bound callables bound again
-/
namespace Pigro.Cxx
variable {V L R : Type}

/-- A function with values in front of and behind the arguments, and what of it changes by calls: `keep` the function's own state, and the values with `true`. -/
structure Plain (V : Type) where
  s : V
  keep : Bool
  fs : List (V × Bool)
  bs : List (V × Bool)

/-- What changes has changed, according to what the function assigned to its arguments. -/
def Plain.changed (p : Plain V) (s' : V) (g : Nat → V) (n : Nat) : Plain V where
  s := if p.keep then s' else p.s
  keep := p.keep
  fs := p.fs.mapIdx fun i q => (if q.2 then g i else q.1, q.2)
  bs := p.bs.mapIdx fun i q => (if q.2 then g (p.fs.length + n + i) else q.1, q.2)

/-- `f(front..., args..., back...)`, again and again. -/
def Plain.calls (pf : PureFn V L R) : Plain V → List (List V) → L → List R
  | _, [], _ => []
  | p, args :: rest, w =>
    let r := pf p.s (p.fs.map (·.1) ++ args ++ p.bs.map (·.1)) w
    r.1 :: (p.changed r.2.1 r.2.2.1 args.length).calls pf rest r.2.2.2

/-- Nothing changes, unless `q`. -/
def only (q : Bool) (vs : List (V × Bool)) : List (V × Bool) := vs.map fun p => (p.1, p.2 && q)

/-- Is there a `<<`? -/
def Chain.hasBack : Chain V → Bool
  | .fn _ => false
  | .bind .front _ _ inner => inner.hasBack
  | .bind .back _ _ _ => true

/-- What layers of bound values amount to: values bound by `>>` come before those of the layers around, values bound by `<<` after them. A `<<` makes what is inside forget changes, and
what is outside not notice them. -/
def Chain.plain : Chain V → Plain V
  | .fn s => ⟨s, true, [], []⟩
  | .bind .front keep vs inner => let p := inner.plain; ⟨p.s, p.keep && keep, only keep p.fs ++ only (!inner.hasBack) vs, only keep p.bs⟩
  | .bind .back _ vs inner => let p := inner.plain; ⟨p.s, false, only false p.fs, only (!inner.hasBack) vs ++ only false p.bs⟩

/-- What one might expect: all changes are kept, but of what is const or of empty type. -/
def Chain.ideal : Chain V → Plain V
  | .fn s => ⟨s, true, [], []⟩
  | .bind .front keep vs inner => let p := inner.ideal; ⟨p.s, p.keep && keep, only keep p.fs ++ vs, only keep p.bs⟩
  | .bind .back keep vs inner => let p := inner.ideal; ⟨p.s, p.keep && keep, only keep p.fs, vs ++ only keep p.bs⟩

/-- The function changes neither its own state nor its arguments. -/
def Unchanging (pf : PureFn V L R) : Prop := ∀ s args w, (pf s args w).2.1 = s ∧ ∀ i v, args[i]? = some v → (pf s args w).2.2.1 i = v

/-- Among the values there are bound callables. -/
structure Embedding (V : Type) where
  emb : Chain V → V
  prj : V → Option (Chain V)
  prj_emb : ∀ c, prj (emb c) = some c

/-- Calling values: bound callables as such, other values with the function. -/
def Embedding.callAny (E : Embedding V) (pf : PureFn V L R) : PureFn V L R := fun s args w =>
  match E.prj s with
  | some c => let q := c.call pf args w; (q.1, E.emb q.2.1, q.2.2.1, q.2.2.2)
  | none => pf s args w

end Pigro.Cxx
