import Verif.Proofs.LazyAs
import Verif.Props.LazyMem
import Verif.Props.Signature
/-!
# C61: lazy functions called through const references or as rvalues
-/
namespace Pigro.LM
open Cxx Demo
variable {D W E S O : Type} [CxxData D]

/-- **C61.** Whatever the constness and value category of the expressions a client calls and polls its lazy functions with: it is shown what a client
calling them as non-const lvalues is shown, the world and the log of invocations and comparisons are the same, and every object that existed is what it was. -/
theorem C61_same (Θ : Empties D W E S) (moved : MV D W E S → MV D W E S) (byRef : Bool) (w : W) (ops : List ((Bool × Cat) × Op D W E S)) :
    (runAs (lang Θ moved) byRef (MState.init w) ops).1 = (runM (lang Θ moved) byRef (MState.init w) (ops.map (·.2))).1 ∧
      (runAs (lang Θ moved) byRef (MState.init w) ops).2.mem.world = (runM (lang Θ moved) byRef (MState.init w) (ops.map (·.2))).2.mem.world ∧
      ∀ c cat op, Untouched (runAs (lang Θ moved) byRef (MState.init w) ops).2.mem
        (stepAs (lang Θ moved) byRef (runAs (lang Θ moved) byRef (MState.init w) ops).2 c cat op).2.mem := by
  obtain ⟨h1, h2, h3, -⟩ := runAs_spec Θ moved byRef ops (MState.init w) (State.init w) (sim_init w) (by simp [State.init])
  obtain ⟨k1, k2⟩ := runM_spec Θ moved byRef (ops.map (·.2)) (MState.init w) (State.init w) (sim_init w)
  refine ⟨h1.trans k1.symm, h2.env.trans k2.env.symm, fun c cat op => ?_⟩
  obtain ⟨-, -, g⟩ := stepAs_spec Θ moved byRef _ _ h2 h3 c cat op
  exact fun a ha => ⟨g.frame a ha (by simp), g.alive a ha⟩

/-- **C61.** A call of a const lazy function, or of a temporary one, in any history; without the deduction guide (lazy.h:23-24) it returns what evaluating the tree
eagerly returns now. -/
theorem C61_call_eager (hs : SoundNe D) (Θ : Empties D W E S) (moved : MV D W E S → MV D W E S) (m : Meaning D W E S O) (w : W) (ops : List ((Bool × Cat) × Op D W E S))
    (hok : ∀ t ∈ runTrees [] (ops.map (·.2)), TreeOk { Glue.asWritten with resultByRef := false } m t) (i : Nat) (t : Tree D W E S)
    (ht : (runTrees [] (ops.map (·.2)))[i]? = some t) (c : Bool) (cat : Cat) :
    (stepAs (lang Θ moved) false (runAs (lang Θ moved) false (MState.init w) ops).2 c cat (.call i)).1 =
      .ret (.ok (m.result (m.obs (runAs (lang Θ moved) false (MState.init w) ops).2.mem.world.w) t)) := by
  obtain ⟨-, h2, h3, -⟩ := runAs_spec Θ moved false ops (MState.init w) (State.init w) (sim_init w) (by simp [State.init])
  obtain ⟨g, -⟩ := stepAs_spec Θ moved false _ _ h2 h3 c cat (.call i)
  rw [g, h2.env]
  exact congrArg seen (C04_fresh_partial hs { Glue.asWritten with resultByRef := false } (.inr (.inl rfl)) m w (ops.map (·.2)) hok i t ht)

/-- **C61.** As pinned, such a call reads an object whose lifetime has ended, as any other. -/
theorem C61_call_dangles (Θ : Empties D W E S) (moved : MV D W E S → MV D W E S) (w : W) (ops : List ((Bool × Cat) × Op D W E S)) (i : Nat) (t : Tree D W E S)
    (ht : (runTrees [] (ops.map (·.2)))[i]? = some t) (c : Bool) (cat : Cat) :
    (stepAs (lang Θ moved) true (runAs (lang Θ moved) true (MState.init w) ops).2 c cat (.call i)).1 = .ret .ub ∨
      ∃ e, (stepAs (lang Θ moved) true (runAs (lang Θ moved) true (MState.init w) ops).2 c cat (.call i)).1 = .ret (.thrown e) := by
  obtain ⟨-, h2, h3, -⟩ := runAs_spec Θ moved true ops (MState.init w) (State.init w) (sim_init w) (by simp [State.init])
  obtain ⟨g, -⟩ := stepAs_spec Θ moved true _ _ h2 h3 c cat (.call i)
  rw [g]
  rcases C16_pinned_dangles w (ops.map (·.2)) i t ht with h | ⟨e, h⟩
  · exact .inl (congrArg seen h)
  · exact .inr ⟨e, congrArg seen h⟩

/-- The nested program: `std::as_const(y)()`, a change of the world, `std::move(y)()`, and `y()` again. -/
def mixed : List ((Bool × Cat) × Op Int Int Nat Nat) :=
  nested.map (fun op => ((false, .lv), op)) ++ [((true, .lv), .call 1), ((false, .lv), .poke (· + 2)), ((false, .xv), .call 1), ((true, .xv), .poll 0),
    ((false, .lv), .call 1)]

example : (runAs (lang empties (fun _ => .unit)) false (MState.init 5) mixed).1 =
    [.unit, .unit, .ret (.ok (some (.data 14))), .unit, .ret (.ok (some (.data 16))), .polled (.ok (some (.data 3), true)), .ret (.ok (some (.data 16)))] :=
  ((C61_same _ _ _ _ _).1.trans (C53_without_guide _ _ _ _).1).trans rfl

example : (runTrees [] (mixed.map (·.2)))[1]? = some yT := rfl

end Pigro.LM

namespace Pigro.Cxx
variable {B V L : Type} [DecidableEq B]

/-- A lambda with by-value generic parameters, `mutable` or not (regular_void.h:16, :29; lazy.h:37, :51, :70, :85): which arguments it accepts, and its result, depend on
the decayed types of the arguments, given by `R`; arguments are copyable. -/
def byValueSig (mu : Bool) (R : List B → Option (Ty B)) : Sig B := fun callee args =>
  if mu && callee.c then none else R (args.map (·.base))

omit [DecidableEq B] in
theorem byValueSig_asLref (mu : Bool) (R : List B → Option (Ty B)) (callee : Ty B) (as bs : List (Ty B)) :
    byValueSig mu R callee (as ++ bs.map Ty.asLref) = byValueSig mu R callee (as ++ bs) := by
  have : (fun x : Ty B => x.base) ∘ Ty.asLref = fun x => x.base := rfl
  simp only [byValueSig, List.map_append, List.map_map, this]

omit [DecidableEq B] in
theorem passTy_bases (c : Bool) (els : List (Elem B)) : (els.map (Elem.passTy c)).map (·.base) = els.map fun
    | .stored ty _ => ty.base
    | .empty b => b := by
  rw [List.map_map]
  apply List.map_congr_left
  intro el _
  rcases el with b | ⟨ty, a⟩ <;> rfl

/-- **C61**, what compiles: with `>>`, a lambda without captures and with by-value parameters, `mutable` or not, is accepted with the same arguments and the same
type of result by a const bound callable as by a non-const one, whatever the tuple holds and whatever the categories of the arguments. This is the form of what
`pigro::lazy` returns (regular_void.h:29). -/
theorem C61_const_compiles (Λ : Lang B V) (f t : Expr B) (els : List (Elem B)) (m m' : Mem V L) (b : Bound B)
    (h : bindTuple Λ .front f t els m = some (b, m')) (hv : NoVolatile f t els) (hfe : Λ.isEmpty f.base = true) (hfc : f.c = false)
    (conv : Ty B → Ty B → Bool) (hconv : ∀ r, conv r r = true) (fallback : Bool) (mu : Bool) (R : List B → Option (Ty B)) (c : Bool) (args : List (Ty B)) :
    Friendly (R ((els.map fun | .stored ty _ => ty.base | .empty b => b) ++ args.map (·.base)))
      (b.static conv fallback (byValueSig mu R) f t c args) := by
  obtain ⟨hd, h1, hk, hf, ht, -, -⟩ := bindTuple_facts Λ .front f t els m m' b h
  obtain ⟨hok, hall⟩ := bound_ok Λ .front f t els m m' b h hv c
  rw [static_eq conv fallback _ b f t c args hok (hall _), hd]
  have hft : f.named.type = ⟨f.base, false, false, .lref⟩ := by simp [Expr.named, Expr.type, hv.1, hfc]
  have hfc : b.f.calleeTy c = ⟨f.base, false, false, .lref⟩ := by rw [hf]; simp [hfe]
  have hs : ∀ k, byValueSig mu R ⟨f.base, false, false, .lref⟩ (els.map (Elem.passTy k) ++ args) =
      R ((els.map fun | .stored ty _ => ty.base | .empty b => b) ++ args.map (·.base)) := by
    intro k
    simp only [byValueSig, List.map_append, passTy_bases]
    simp
  have hfl : (⟨f.base, false, false, .lref⟩ : Ty B).asLref = ⟨f.base, false, false, .lref⟩ := rfl
  simp only [hft, hfc, hk, bindBackStatic, hfl, byValueSig_asLref, hs]
  cases hr : R ((els.map fun | .stored ty _ => ty.base | .empty b => b) ++ args.map (·.base)) with
  | none => rfl
  | some r => simp [Friendly, returnAs, hconv]

open SigDemo in
/-- `const auto g = compressed_tuple{ 1 } >> [](auto a, auto b) mutable { … };` can be called; not so with captures
(`C58_const_object`). -/
example : ∃ b m', bindTuple Λ .front ⟨.efn, false, false, .xv, 3⟩ tup els mem = some (b, m') ∧
    b.static conv true (byValueSig true fun bs => if bs = [.int, .dbl] then some (val .int) else none) ⟨.efn, false, false, .xv, 3⟩ tup true [rref .dbl] =
      .ok (val .int) := ⟨_, _, rfl, by decide⟩

end Pigro.Cxx
