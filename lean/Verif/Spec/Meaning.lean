import Verif.Spec.Eager
import Verif.Spec.Throwing
/-!
# Specification: programs with the same meaning

Two programs which declare, copy and use variables at the same places; the functions, the dependencies, the world and the functions' own state may all be different, as long as the declared variables
mean the same.
-/
namespace Pigro.Mng
variable {D W W' E S S' O : Type}

/-- Neither declaration compiles, or both do, and mean the same whatever is observed. -/
def SameDecl (m : Meaning D W E S O) (m' : Meaning D W' E S' O) (c : FnCode D W E S) (c' : FnCode D W' E S') :
    Option (List (Tree D W E S)) → Option (List (Tree D W' E S')) → Prop
  | none, none => True
  | some us, some us' => (c.ret = .val ↔ c'.ret = .val) ∧ ∀ o, m.eager o (.lazy c us) = m'.eager o (.lazy c' us')
  | _, _ => False

/-- Programs that declare variables of the same meaning at the same places, and otherwise do the same. -/
inductive Alongside (m : Meaning D W E S O) (m' : Meaning D W' E S' O) : List (Op D W E S) → List (Op D W' E S') → Prop
  | nil : Alongside m m' [] []
  | mk {l l'} (f f' ds ds') : Alongside m m' l l' →
      SameDecl m m' f.toFnCode f'.toFnCode (argTrees (runTrees [] l) ds) (argTrees (runTrees [] l') ds') → Alongside m m' (l ++ [.mk f ds]) (l' ++ [.mk f' ds'])
  | copy {l l'} (i : Nat) : Alongside m m' l l' → Alongside m m' (l ++ [.copy i]) (l' ++ [.copy i])
  | call {l l'} (i : Nat) : Alongside m m' l l' → Alongside m m' (l ++ [.call i]) (l' ++ [.call i])
  | poll {l l'} (i : Nat) : Alongside m m' l l' → Alongside m m' (l ++ [.poll i]) (l' ++ [.poll i])
  | poke {l l'} (h h') : Alongside m m' l l' → (∀ w w', m.obs w = m'.obs w' → m.obs (h w) = m'.obs (h' w')) → Alongside m m' (l ++ [.poke h]) (l' ++ [.poke h'])

/-- Neither declaration compiles, or both do, and mean the same (a value, or an exception) whatever is observed. -/
def SameDeclE (m : MeaningE D W E S O) (m' : MeaningE D W' E S' O) (c : FnCode D W E S) (c' : FnCode D W' E S') :
    Option (List (Tree D W E S)) → Option (List (Tree D W' E S')) → Prop
  | none, none => True
  | some us, some us' => (c.ret = .val ↔ c'.ret = .val) ∧ ∀ o, m.eager o (.lazy c us) = m'.eager o (.lazy c' us')
  | _, _ => False

/-- `Alongside`, for functions that may throw. -/
inductive AlongsideE (m : MeaningE D W E S O) (m' : MeaningE D W' E S' O) : List (Op D W E S) → List (Op D W' E S') → Prop
  | nil : AlongsideE m m' [] []
  | mk {l l'} (f f' ds ds') : AlongsideE m m' l l' →
      SameDeclE m m' f.toFnCode f'.toFnCode (argTrees (runTrees [] l) ds) (argTrees (runTrees [] l') ds') → AlongsideE m m' (l ++ [.mk f ds]) (l' ++ [.mk f' ds'])
  | copy {l l'} (i : Nat) : AlongsideE m m' l l' → AlongsideE m m' (l ++ [.copy i]) (l' ++ [.copy i])
  | call {l l'} (i : Nat) : AlongsideE m m' l l' → AlongsideE m m' (l ++ [.call i]) (l' ++ [.call i])
  | poke {l l'} (h h') : AlongsideE m m' l l' → (∀ w w', m.obs w = m'.obs w' → m.obs (h w) = m'.obs (h' w')) → AlongsideE m m' (l ++ [.poke h]) (l' ++ [.poke h'])

/-- Caches are dropped; or they are kept, and no variable is called that has thrown before, or is made from one that had. -/
def Untroubled [CxxData D] (g : Glue) (w : W) (ops : List (Op D W E S)) : Prop :=
  g.Drops ∨ g.Retains ∧ ∀ l i rest, ops = l ++ Op.call i :: rest → (marks [] l (run g (State.init w) l).1)[i]? ≠ some true

/-- No variable is called with `nullptr`. -/
def NoPolls (ops : List (Op D W E S)) : Prop := ∀ i, Op.poll i ∉ ops

/-- Outside changes change what is observed in a way that depends on what is observed only. -/
def PokesOk (m : Meaning D W E S O) (ops : List (Op D W E S)) : Prop := ∀ h, Op.poke h ∈ ops → ∀ w w', m.obs w = m.obs w' → m.obs (h w) = m.obs (h w')

/-- The elements at the given places, in that order: some may be left out, and some may be taken several times. -/
def pick {α : Type} (ks : List Nat) (l : List α) : List α := ks.filterMap (l[·]?)

end Pigro.Mng
