import Verif.Spec.Eager
/-!
# Specification of the comparisons made by one call
-/
namespace Pigro
variable {D W E S : Type}

/-- The user's callable inside the `f` of `detail::lazy`, and how it is invoked. -/
def Fun.user : Fun D W E S → Kind × UFn D W E S
  | .regularized u => (.fn, u)
  | .wrapDep u => (.dep, u)

/-- The value a node holds, if it is one that can be compared with `operator!=` of the user. -/
def Cache.comparable : Cache D → Option (Val D)
  | .opt o => o
  | .rv _ => none

mutual
/-- `NodeLog o l`: in the events `l` of one evaluation of `o`, every node of `o` compares exactly once - the value it held before, with the value its
function has just returned - if its function was invoked, returned, and the node held a value; and not at all otherwise. -/
inductive NodeLog : Obj D W E S → List (Ev D S) → Prop
  | value (v : Val D) (c : Bool) : NodeLog (.lazyValue v c) []
  /-- the function is not invoked -/
  | idle (f : Fun D W E S) (c : Cache D) {ds : List (Obj D W E S)} {l} : DepsLog ds l → NodeLog (.core f c ds) l
  /-- the function throws -/
  | threw (f : Fun D W E S) (c : Cache D) {ds : List (Obj D W E S)} {l} (args : List (Val D)) (w w' : W) (x : E) (st : S) : DepsLog ds l →
      f.user.2.run f.user.2.st args w = (.error x, st, w') →
      NodeLog (.core f c ds) (l ++ [.call f.user.1 f.user.2.id args f.user.2.st st])
  /-- the function returns, no value is held -/
  | first (f : Fun D W E S) (c : Cache D) {ds : List (Obj D W E S)} {l} (args : List (Val D)) (w w' : W) (v : Val D) (st : S) : DepsLog ds l →
      f.user.2.run f.user.2.st args w = (.ok v, st, w') → c.comparable = none →
      NodeLog (.core f c ds) (l ++ [.call f.user.1 f.user.2.id args f.user.2.st st])
  /-- the function returns, a value is held -/
  | again (f : Fun D W E S) (c : Cache D) {ds : List (Obj D W E S)} {l} (args : List (Val D)) (w w' : W) (v old : Val D) (st : S) : DepsLog ds l →
      f.user.2.run f.user.2.st args w = (.ok v, st, w') → c.comparable = some old →
      NodeLog (.core f c ds) (l ++ [.call f.user.1 f.user.2.id args f.user.2.st st, .cmp old (f.user.2.ret.regularize v)])
  | unwrapped {o : Obj D W E S} {l} : NodeLog o l → NodeLog (.unwrapped o) l
  | unregularized {o : Obj D W E S} {l} : NodeLog o l → NodeLog (.unregularized o) l
/-- The same for several dependencies, evaluated one after another, perhaps not all. -/
inductive DepsLog : List (Obj D W E S) → List (Ev D S) → Prop
  | stop (ds : List (Obj D W E S)) : DepsLog ds []
  | cons {d : Obj D W E S} {ds : List (Obj D W E S)} {l l'} : NodeLog d l → DepsLog ds l' → DepsLog (d :: ds) (l ++ l')
end


end Pigro
