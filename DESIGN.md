# Formal model of erikvalkering/pigro in Lean 4

## 1. What the code does (reading of the pinned commit)

Header-only C++20, 17 headers in `src/pigro`. The public entry point is `pigro::lazy(f, deps...)`
(`lazy.h:96`). Everything else is machinery: `compressed_tuple` (tuple with empty elements removed),
`>>`/`<<` binders (`bind_tuple.h`), `recursive`, `overload`, `forward_like`, `regular_void`,
type-list `partition`, tuple/pack algorithms, `uncapture`.

Reading the pinned code against the C++20 rules gives the following facts; they determine the model.

* **F1, copies.** `bind_back_tuple` calls the stored callable through `std::bind_front(f, ...)`
  (`bind_tuple.h:46`), which decay-copies it. `detail::lazy` binds its closure (which owns the cache) with `<<`,
  hence the closure that runs is a temporary copy and the cache it fills is thrown away. In addition the closure takes
  `auto f, auto... deps` by value (`lazy.h:50`), `unwrap_value` takes `auto f` by value (`lazy.h:38`), and
  `unregularized_void` takes `auto f` by value (`regular_void.h:29`), so each of these also works on a copy.
  So in the pinned code no call leaves a trace in the called object: *caching does not work*.
* **F2, dangling.** `LazyResult{*cache, changed}` deduces `LazyResult<const T &>` (`lazy.h:24`; the user-declared guide
  wins over the aggregate one). The reference designates the cache of the temporary closure of F1, or, in `lazy_value`
  (`lazy.h:70-73`), a by-value parameter. Reading `.value` afterwards is undefined behaviour.
* **F3, tuple flattening.** `transform` builds `std::tuple{ projection(args)... }` (`tuple_algorithms.h:10`) by CTAD;
  with one element that is itself a `std::tuple`, this copies that tuple instead of nesting it. A lazy function with a single
  tuple-valued dependency therefore receives the unpacked elements.
* **F4, exceptions.** If the wrapped function throws after its dependencies have been evaluated, the dependencies have
  already consumed their change flag. (With retained state) the next call returns the value cached before the failure.
* **F5, `>>` passes call arguments as lvalues, `<<` as rvalues of copies** (`bind_tuple.h:16`, `:46`).
* **F6, well-formedness.** `static_cast<Ts...>(values)...` (`compressed_tuple.h:59`) is read as the evidently intended
  `static_cast<Ts>(values)...`; `compressed_tuple_element<items.index>` (`:42`) needs P2280-style constant evaluation
  and the constrained/unconstrained overloads at `:18`/`:25` need the constrained one to be preferred; the by-reference
  `auto &self` at `lazy.h:38` binds to an rvalue bound argument only in standard libraries in which `std::bind_front` falls back
  to the const overloads; `template<empty T, size_t tag>` (`uncapture.h:20`) is read as `concepts::empty`. The model describes the program that results when these are accepted (MSVC, the compiler the
  project is configured for).
* **F7, `tuple_like`.** The requires-expression of `concepts::tuple_like` (`concepts.h:33-36`) is satisfied by every type (`std::same_as<...>` is a
  simple requirement, its value is not looked at), and the rest needs the value of `std::tuple_size_v` outside the immediate context. Asking about a type that is
  not a tuple is a hard error (C66). Among others, `uncaptured(v) >> f` is ill-formed where the operator of `bind_tuple.h` is visible.
* **F8, optionals of optionals.** If a function returns a `std::optional<T>`, the cache is a `std::optional<std::optional<T>>`, and `cache != result`
  (`lazy.h:58`) is resolved to the comparison of two optionals (more specialised than the one of an optional with a value): it compares the cache with the result one level off. An empty
  result differs from a cached empty result (so what depends on it is calculated again in every call), an empty first result does not differ from the empty cache, and
  for `std::optional<std::optional<T>>` a cached `nullopt` does not differ from an optional containing `nullopt` (so what depends on it is stale) (C84).
* **F9, references.** A wrapped function that returns a reference is taken to return a copy: the lambdas around it (`regular_void.h:16`, `lazy.h:84`) have no trailing return type. A `std::reference_wrapper` to
  something that cannot be called is a dependency by value: later changes of the object are seen by the function when it runs but are never reported as changes.

Because F1 and F2 falsify the central promises of the library, the model has a parameter `Glue`: one Boolean per
place where an object is handed over by copy or by reference. `Glue.asWritten` (all copies, result by reference) is the pinned code.
`Glue.retained` is the documented design (`docs/walkthrough/final_design.md`), where the state stays in the object.
Properties that fail for `asWritten` are refuted for it by a theorem and proved for the largest class of `Glue` values
for which they are true; these theorems carry the suffix `_partial` and the property has status `partial`.

## 2. Structure

* `lean/Verif/Model/*.lean`: the model; every definition cites the lines it models.
* `lean/Verif/Spec/*.lean`: independent specifications (eager evaluation, tuples as lists, structs, ...). Specifications that fit on a few lines
  stand in the property file, before the theorem.
* `lean/Verif/Proofs/*.lean`: lemmas.
* `lean/Verif/Props/*.lean`: property theorems, each with an `example` that instantiates its hypotheses on a concrete, non-trivial case.
* `lean/Verif/Tests/*.lean`: the tests of the repository (tests/*.test.cpp), transcribed and run on the model. They show that the model does what the
  tests say (or, where F1 and F2 make a test fail, what does not hold). They are tests of the model and are not claimed as proofs.
* `seeded/LOG.jsonl`: wrong programs the theorems were tested on.

Two levels. The *abstract* level (`Pigro`, `Model/Lazy.lean`) has objects as values and the parameter `Glue`. The *memory* level (`Pigro.Cxx`, `Pigro.LM`)
has addresses, lifetimes, by-value parameters and temporaries, and composes the models of `compressed_tuple.h`, `bind_tuple.h`, `regular_void.h`
and `lazy.h`; there F1 and F2 are not assumed. C53 proves that the memory level behaves as the abstract one with `Glue.asWritten` (and, if the
deduction guide `lazy.h:24` is taken away, as with the same glue returning results by value), so that F1 and F2 are theorems. `Pigro.Lay` models layouts.

### Lazy functions (C01-C21, C50, C51, C56)
`Obj` is the inductive type of lazy objects (`lazy_value`, `detail::lazy`, `unwrap_value`, `unregularized_void` wrappers).
A call is a function `Obj -> Env -> Out x Obj x Env`: outcome (value / exception / undefined behaviour / ill-formed), the called
object afterwards, and the environment (outside world plus a log of user-function invocations and comparisons).
User functions are arbitrary: they own state, may read and change the world, and may throw.
References returned inside `LazyResult` carry whether their target is still alive after the call.
Histories are lists of operations (construct from values / functions / existing lazies, copy, call, poll with `nullptr`, outside change).

| property | how |
|---|---|
| C01 | induction over programs without evaluation: log empty, world only changed from outside |
| C02, C03 | invariant over histories of one variable; refuted for the pinned code, for every number of calls |
| C04 | consistency invariant (every cached value is the value of the cached dependencies) over all histories, refinement to `Meaning.eager`; `C04_exact` shows which glue has the property |
| `*_exact` (C02, C05, C11, C16, C18, C19) | equivalence: the property holds for all programs **iff** the glue keeps caches (keeps references alive, for C16); `Props/LazyE.lean`. Shows that each partial theorem's condition on the glue is the weakest |
| C05, C09, C10 | exact sequence of invocations and comparisons of a call after another, by induction over the tree, against `Meaning.recalc` and `recmp`; C10 for every glue by the relation `NodeLog` |
| C06, C07, C15, C17, C21 | one call in any reachable state; shape invariant (`Shape`) over histories, induction over the tree |
| C08 | the adaptor's dummy always reports a change; any reachable plain-function dependency is invoked |
| C11, C12 | comparison of `is_changed` with what the client has seen before (`track`), invariant over histories |
| C13 | simulation of the history with and without the operations on the other copy |
| C14, C50 | one-call theorems for exceptions; `marks` (which variables have thrown) as specification, consistency invariant for unmarked variables; counterexamples; `C50_exact` |
| C16 | liveness of results, exact condition on the glue |
| C18, C19 | the log of own states is a chain; the held value after a call |
| C20 | the overload set of `ensure_lazy` on all capabilities |
| C51 | the world after a history is that of replaying the logged invocations |
| C56 | first call in a program: exactly the post-order of the tree with repetitions; upper bound in any state; counterexample |
| C57 | layout rules: base at offset 0, member at offset 0 for every empty `T`; a strict inequality for non-empty `T` |

### Binders and tuples in memory (C22-C31, C33, C43, C44, C49, C52)
`Model/Memory.lean`: a memory with addresses that are never reused, dead objects, and everything else the user's code can reach (`L`).
Expressions carry type, constness, value category and address. A callable is arbitrary code on memory, given callee and argument
expressions. Theorems hold for every such code and every memory satisfying the validity of the objects involved.
C22-C24, C26: the invocation made is exactly the one specified (which addresses, which categories, what copies). C25: induction over sequences of
calls. C27-C29: `get` denotes the element; refinement of a machine with variables for sequences of writes. C30, C31, C33-C35: cv-ref
calculus, all base types, exhaustive over qualifications. C49: `regularized_void` is a binder around a lambda; exact behaviour. C52: initialisation of
reference elements.

### Copies and moves (C62-C64)
The memory keeps a record of every copy and move construction of a user object (`Mem.inits`, written by `Lang.initFrom`, read by no part of the model). `Spec/Copies.lean` says which calls
were made between two memories. C62-C64 give the exact record for capturing, calling and tuple making, by induction over argument lists. Objects of empty
type that `get` makes by `empty_object` are not constructed from anything and not counted.

### The first documented design (C68)
`Model/FirstDesign.lean` transcribes the `lazy` of docs/walkthrough/dependencies.md (own cache plus `dependencies_cache`). `Proofs/FirstDesign.lean` is a simulation
between its objects and those of `Glue.retained` (`Same`: same functions, same caches, and `dependencies_cache` equal, up to the user's `==`, to the values the
dependencies last returned). It needs no assumption on the functions. It is kept by every operation that does not throw. `Proofs/FirstDesignFresh.lean` shows that the first
design is right even after exceptions: its invariant relates the cache to `dependencies_cache` only, not to what the dependencies remember.
Values as dependencies are modelled directly, not as lazy functions returning them; `void` results are regularized as in lazy.h.

### The documented rendering loop (C69)
The program of docs/walkthrough/reactivity_all_the_way_down.md is a client program of the base model. `Proofs/Constant.lean`: a tree without plain functions is `Settled` after
its first evaluation (all caches filled, all constants unchanged), stays so in every history, and evaluates to the same value with no effect. Hence the argument of
`render_mouse_cursor` is the first icon forever (`C69_documented_frozen`). Where every call works on copies (`Glue.Drops`) the loop is right by accident, because nothing is cached.

### The documented final design (C70)
`Model/FinalDesign.lean` transcribes docs/walkthrough/comparisons.md and final_design.md; closures are separated into types and captured states, so that the double evaluation is
structural recursion on the type. `Proofs/FinalDesign.lean`: one evaluation (value, `is_changed`, invocations) by mutual induction over the tree, with `LastMix n` for "the first `n`
dependencies were already asked". `Proofs/FinalDesignHistory.lean`: both designs run the same program side by side (`InPlace`: they remember the same values). `Meaning.polls` in the
specification counts invocations without reference to caches.

### Lazy functions of the user's own making (C71)
`Model/UserLazy.lean` is the abstract model with one more kind of object: any class with a call operator for `nullptr` (arbitrary code with own state). `C71_conservative` is a simulation
showing that it adds nothing else. Freshness: `GoodX` (every cache is the function's value on what the dependencies returned last, where a user-defined one knows itself what it
returned, `XMeaning.last`), kept by every operation. `Watch` in the specification is a hand-written program with one variable for the last value; refinement over all runs.

### The two programs of the README (C72)
`Model/Handwritten.lean` transcribes docs/comparison-handwritten.png line by line; `whileTrue` (the loop, left by an exception) is shared by both programs. Simulation: before every
iteration the flag is down and the four variables hold what the caches of the lazy function hold (`Hand.cursorObj`, `Hand.Ready`); one iteration of both by cases along lines 9-34,
with no assumption on the functions but types and tuples. Counting for the program as pictured: an invariant on the flag.

### The simplified versions of `lazy` (C73)
`Model/CallOnce.lean`: the two simplified versions, programs over them (`SOp`), and the program with two flags line by line, with and without its bug. The library's program is obtained
operation by operation (`SOp.withLibrary`). Simulation relating flag or optional to the cache of the facade object (`Simple.obj`); counts by induction over the visits.

### Values as dependencies (C74)
`desugar` (`Spec/Sugar.lean`) writes out every value dependency, with renumbered variables. `Sug` is a dependency as object of both programs (`src`, `tgt`); invariant: a lazy function whose
cache holds something has asked all of its values, so that the flags of values are the only thing that ever differs, and only where they do not matter. Mutual induction over `Sug`, then
induction over programs with a renaming of variables that is injective.

### Lazy instead of values (C75)
`Model/ExtraLazy.lean`: the two editors of extra_laziness.md; that the cursor is hidden is a predicate on the world, an iteration in which it is hidden does nothing. The simulation of C74 is stated for any `Recipe` (a function and value arguments for every value) that yields the value; the lambdas of C74 and `load_image` are instances (`arrowRecipe`). `call_sim` is the step used in the loop. The count (`editor_loop`) does not need that loading always gives the same image: it follows the cache of the image through the iterations, for functions that throw, too.

### Throwing comparisons and copies (C67)
`Model/LazyEff.lean` repeats the calls of `Model/Lazy.lean` with `operator!=` and the assignment to the cache as arbitrary code on the world that may throw; `C67_refines`
shows that it is the same model if they do not. Inductions over the tree on the log of a call, and on all caches of an object.

### Sizes of callables (C65), `tuple_like` (C66)
C65: the layout rules of C32 applied to callables of the user, by induction over bases and values; a clash as witness that the condition is needed. C66: checking a
constraint has three outcomes (satisfied, not satisfied, ill-formed); induction over the index sequence.

### Accepted calls (C58)
Static semantics of the binders: closed form of what is declared and what the body needs, for an arbitrary function from argument types to result type; linked to
the dynamic model by showing that the expressions passed when running have the types the static model assumes.

### Calls of const and temporary lazy functions (C61)
`Model/LazyAs.lean`: client programs at memory level whose calls each have a constness and value category. Proved to simulate the same program with plain calls
(`Proofs/LazyAs.lean`); the one fact needed is that all variables of a client are made by `unregularized_void`, whose lambda takes what it wraps by value.
What compiles: from the closed form of `Bound.static` used for C58.

### Programs that compile (C59, C60)
`Model/Typing.lean`: types of values and variables, and which constructions compile, given an arbitrary function from argument types to result type for every user function.
C59 is type soundness: a typing invariant on lazy objects (caches, dependencies, functions), preserved by evaluation (mutual induction) and by every client operation.
C60: the condition under which `lazy(f, deps...)` compiles, in closed form.

### Composition (C53, C54)
Simulation by induction over objects and client programs, with a frame condition (`Keeps`) that gives C54. Types may be empty or not.

### Layout (C32, C55)
Class layout by the Itanium C++ ABI: bases and members at increasing offsets, empty bases at 0 or further if a subobject of the same type is already
there. C32: size and emptiness of tuples and bound callables. C55: size of any tree of lazy functions; induction over the tree.

### The rest
C36, C37: `recursive` as resumable programs, fixed point by fuel with monotonicity and well-founded induction. C38, C39: lists. C40: overload
resolution as best viable candidate. C41, C42, C45: tuples as lists, effects as state transformers. C46, C47: layers around a callable.
C48: programs over `optional<regular_void>` refine those over an optional of a unit type.

### Memory compared with the first design (C76)

`Model/FirstLayout.lean` lays out the closure of dependencies.md:41 with the rules of `Model/Layout.lean`, for the trees of C55. What dependencies it captures and
`std::optional<std::tuple<...>>` of their values are modelled; the latter is a parameter where its size does not matter. `C76_smaller_partial`: mutual induction over the tree; with
one alignment only, a struct takes the sum of what its members take (`Aligned.structOf`), and a class is never smaller than its members together (`classLayout_members`, for arbitrary members).
C55 gives the size of the library's object. False in general: `C76_functions` (exact sizes for every number of plain functions, by induction over the members placed) and `C76_padding`.

### Sharing (C77)

`Model/Sharing.lean`: the shared variables and their world are the world of the program that shares them, restricted to states reachable by use (`Shared`); a function that calls a
shared variable is a plain function that changes that world (`byCall`), `std::ref(x)` a lazy function of the user's making (`byRef`, C71). The specification (`Spec/Sharing.lean`) is
the tree with the shared trees in place. `C77_by_call_partial`: a call of a shared variable returns its eager value and changes nothing observable (C04 for the sharing program), so that it is
a plain function with a meaning (`Meaning.beside`, by choice) and C04 applies to the outer program; `InPlace` relates the trees of the two. `C77_once_partial`: the last values stay
(`quiet_last`). By reference: invariant over the reference semantics of C71 (`C71_flags_decide`): the last value is that of the last values of the dependencies, which others must not
change; `C77_by_ref_stale` is the general negation.

### Moves and lifetimes (C78)

`Model/Moving.lean`: client programs with `std::move`, also of arguments of `pigro::lazy`, and ends of lifetimes, at both levels. A move leaves a moved-from value of every member behind
(caches stay engaged); at memory level whatever `moved` says. Use of a destroyed variable is undefined behaviour. The specification (`Spec/Moving.lean`) translates a program into one
without moves by following the names (`unmoved`). Proof: simulation, the names that may be used being injective (abstract level) and their addresses distinct and alive (memory level), where one
operation is reduced to C53 for the variable it uses. For types whose moves are copies, `Props/MovingCopy.lean` also covers variables used after a move (`C78_moves_that_copy`).

### Dependencies that never change (C79)

`Spec/ConstDep.lean`: a partial map from functions to the value they always return, the program with values instead of such functions (`Op.settle`), and what may be missing from the log then
(`Without`, `Constants.Redundant`). Proof: simulation of every history (`settle_sim`), composed with C75 for lazy functions. The counts of the documented loops are by induction on the iterations
(`Proofs/ArrowLoads.lean`).

### References instead of copies, at memory level (C80)

`Model/LazyGlue.lean`: the memory-level program of C53 with a parameter for every place where the pinned code copies. That with all copies it is the program of C53 is proved (`runMG_written`). Proof
that it does what `run g` says: as for C53, but the called object changes, so members are written back: from the parameters, if they are references, through the binders (`Kept`,
`Proofs/GlueBind.lean`) to the cells of the members (`Proofs/GlueCall.lean`), by induction on objects, then on programs (`Proofs/GlueRun.lean`). Thereby the theorems marked partial, about `run g` for glue that
retains state, hold of objects in memory; two of them are carried over (`C80_fresh`, `C80_recalculation`). Results may be references (lazy.h:23-24): a result by reference denotes an object made during the call (`ResG`), and it still exists after the call exactly if `LazyRes.live` says so, because what is made in a function with by-value parameters ends with it (`ending`, Model/LazyMem.lean). The one exception, a constant of empty type, of which `compressed_tuple` makes a temporary, is a hypothesis (`ConstantsStored`) with a witness that it is needed (`C80_empty_constant_dangles`): removing the copies but keeping the deduction guide would make `lazy(f, std::integral_constant<int, 7>{})` undefined.

### Comparisons and copies with effects, over whole programs (C81)

`Model/EffHistory.lean`: the client programs of `Model/History.lean`, run with the calls of `Model/LazyEff.lean`, in which `operator!=` and copies of results are arbitrary code. With pure comparisons it is
`Model/History.lean` (`C81_refines`). The conditions on the user's code are in `Spec/EffHistory.lean`. Proof: the invariant of C51 (every cache is what the function gave for the values the
dependencies have cached, if it was not left with an exception) is kept by every evaluation that returns, by induction on objects; an evaluation that throws does so either because eager evaluation does, or with the
event of the failing operation last in the log; then induction on programs.

### Independent lazy functions (C82)

`Spec/Interference.lean`: what one part of a program can see of the world is a relation `R` between worlds; the functions of ours see only that (`SeesOnly`), those of the others do nothing that shows in it
(`Unseen`). Proof (unwinding): evaluations of ours from states that agree on ours and on the visible world give the same with the same events, by induction on objects (`alike_evalN`); evaluations of the others keep the
agreement (`unseen_evalN`); then induction on programs. `LM.C82_in_memory` carries it to the objects in memory, through C80. Operations are atomic: threads are not modelled.

### Reentrancy (C83)

`Model/Reentrant.lean`: a wrapped function is a tree of steps (`Body`): it finishes, or calls its own lazy function and continues with the answer. `call g n` is a call with at most `n` levels of nesting, in the order of
lazy.h:51-65; the nested call finds the object as the outer one has left it so far (dependencies evaluated, cache not assigned), and lazy.h:58 compares with the cache as it is after the nested calls. For every glue.
`C83_plain` says that this is the model of `Model/Lazy.lean` for functions without nested calls, so nothing is assumed about it that was not there before. `C83_bound`: the bound does not matter once the call ends; "never
ends" is `none` for all `n`. Proof of `C83_settled_partial`: induction on the depth and on `Body` that calls keep the invariant of the dependencies (`call_inv`); in a call, the dependencies are evaluated before the function
runs, so that for nested calls nothing has changed (`call_skip`, `runBody_settled`).

### Optionals as results (C84)

`Ops.neNone` of `Model/LazyEff.lean` says what `cache != result` (lazy.h:58) gives for an empty cache; all theorems about that model (C67, C81) hold whatever it says. `Model/OptResult.lean`: values of a program are of a type
`X` or of up to `n` optionals around it; `neOV k` is `std::optional<R> != R` for an `R` of `k` optionals, with the overload that is chosen (F8). Proofs: `neOV` by induction on `k`; `evalN_stepC` is the induction of
C01-C05 for any comparison that is a pure function and sound, without reflexivity, with exact invocations, comparisons and reports relative to the values of the last evaluation.

### Threads (C85)

`Model/Threads.lean`: a call is a program (`Prog`) whose steps are single accesses to caches and single invocations of user functions; a scheduler interleaves the steps of any number of threads in any order (`exec`). Results refer
to caches and are read when the code reads them (`Ref`). A call is modelled with objects handed over by reference (`callR`, for glue that retains) and by value at the outermost lambda (`callV`, as the pinned code). A data race is a
reachable state in which two threads are about to access the same cache, one of them to write it. Proofs: a program run alone is the call of `Model/Lazy.lean` (`callR_run`, `callV_run`, by induction on the object); threads that do not
write what others access behave as alone under every schedule (`exec_separate`, an invariant over schedules); two threads with the same program both reach its first write (`race_same`); a call writes exactly if it invokes a
function (`callR_work`). Simplifications: a cache is one location, user functions and `operator!=` run in one step, their own state is constant, the memory model is interleaving (which is what C++ guarantees in the absence of data races).

### The Microsoft compiler (C86)

`Model/MsLayout.lean`: layout by the rules of the Microsoft ABI for x64 as implemented in Clang (`MicrosoftRecordLayoutBuilder`, from knowledge of it, no source being at hand), for classes without virtual functions, bit-fields and
alignment attributes, with and without `__declspec(empty_bases)`; `std::tuple<T>` as in the library of that compiler. The same classes as in `Model/Layout.lean`, `Model/CallableLayout.lean`, `Model/LazyLayout.lean` and `Model/EmptyObject.lean`.
Sizes are specified by the same arithmetic of structs. Proofs: a class with the declaration lays out its non-empty bases like members (`bases_ebo`, induction over the bases); every class made by the library is either of size zero as a
base or without anything to cut off (`Good`), which is kept by all constructions, and by induction by trees of dependencies.

### Making objects with the Microsoft compiler (C87)

`Model/MsMake.lean`: the constructors of `overload` under `_MSC_VER` (overload.h:15-33) on the memory model of `Model/CompressedTuple.lean`: by-value parameters, a `std::tuple` copied from them, bases copied out of it by type with
`std::get<G>`, sorted by `Ovl.constructMsvc`; and `compressed_tuple` and `bind_tuple` made by it. Specified by what can be seen of an object (`View`: types, values, references) and by the records of copies and moves of C64.
Proofs: `Twin`, a relation between the memories with the two variants (same old objects, new objects holding the same), kept by every step, and `Extra`, counting the additional copies.

### Special member functions (C88)

`Model/Special.lean`: types as records of what can be done with them (`Caps`), and the rules of C++20 for implicitly declared members, closure types, `std::tuple<T>` and `std::optional<T>`; overload resolution between the constructors of
`compressed_tuple`. Specified by conditions on the user's types. Proofs: calculation for each class, induction over trees of dependencies. A callable or tuple bound as an lvalue is `ref`.

### What a call copies (C89)

At the memory level of C53, where every copy and move construction is recorded together with the object it makes. `Spec/CallCopies.lean`: weights of functions and values in an object, and the expected number, by recursion over the tree. Proof: what each layer
(closure of `detail::lazy`, `unwrap_value`, `unregularized_void`, the bound tuples between) makes, given what the layer inside makes, by induction over the object; the relation to trees by induction over the tree. Not counted: copies of results.

### Objects in uncapture.h (C90)

`Model/UncaptureMake.lean` follows every parameter, temporary and base class subobject of `uncaptured(v...) >> f` in memory: the parameters of `uncaptured`, the aggregates `Uncaptured<T>`, the elements of `std::tuple`, of `std::tuple_cat` and the parameters of the lambda
called by `std::apply`, the parameters of every `operator>>` of the fold and of the constructor of `CompressedInvocable`. From the standard library: `std::tuple{ x... }` initialises its elements from its arguments forwarded, `std::tuple_cat` copies from an lvalue tuple and moves
from an rvalue, `std::apply` forwards the elements of an rvalue tuple as rvalues. Proof: every function is given what it copies and moves, where its result is, and that the result has the view of Model/Uncapture.lean; composed along the calls, the fold by induction over the values.

### Copies of results (C91)

`Model/ResultCopies.lean` lists, next to `evalN` of Model/Lazy.lean, the copies and moves of results in order: the member of every `LazyResult`, the elements of `args`, the parameters of `is_changed`, of `value` and what it returns, the elements of the tuple of values, the
parameters of the lambdas around functions, the cache, and what a call returns. Elision as guaranteed by C++17 for prvalues; a member named in a return statement is copied; `std::move` of the const local `result` copies. Proof: by induction over the object, each poll accounting
for the copies of the results of its dependencies.

### Copies made by lazy (C92)

`Model/LazyMake.lean` records every copy and move construction of `pigro::lazy`: by-value parameters of `lazy`, `regularized_void`, `ensure_lazy`, `lazy_value`, `detail::lazy`, `unwrap_value`, `unregularized_void`, and the temporaries of every `compressed_tuple{ ... }`.
`Spec/MakeCopies.lean` weighs what is copied and says what is expected. Proof: `compressed_tuple{ es... } >> f` copies each of `es` once (lemmas of C63) and moves the rest; by-value parameters copy what is not a non-const rvalue; composed along the functions of lazy.h, with the
values of all intermediate objects known from C54; the program by induction.

### Number of invocations (C93)

`Spec/CallCost.lean` counts, from the text of a client program, the paths from each variable to plain functions and to all functions. Proof: the numbers are those of the trees (induction on the program); C07 gives the plain functions run, C10 the comparisons, C05 what is
run again; with the same observations nothing is (induction on the tree). `LM.doubling`: every lazy function is the dependency of the next twice.

### Requirements on types (C94)

`Model/Requirements.lean` lists, function by function of lazy.h, which copies, moves, assignments and comparisons its expressions make, of which types; the types' special member functions are those of C88. The specification names the requirements on the user's types only
(`Kept`, `Remembered`). Proof: induction on the tree of dependencies; the intermediate types (wrapped functions, tuples, closures with caches) are shown to meet what is asked of them whenever the user's types do. A result that can only be moved, one with a const member and one without `operator!=`
are rejected (`C94_rejected`), although a function returning them can be called.

### A function with a memory (C95)

`Spec/Remember.lean` defines a machine of its own: nodes with a function, a last result and the last values of the dependencies; no flags, no caches in closures, no copies. Unlike for C04 and C05, functions are arbitrary, so there is no value of a tree to compare with: the specification is this machine, and
C95 is a refinement: every program gives the same answers, invocations and world. Proof: simulation, by induction on nodes and programs; the flag `is_changed` of a dependency says whether its value differs from what the dependent remembers, also after exceptions in between. The converse (`C95_exact`) is by five programs and all 256 values of `Glue`.

### Nothing remembered (C96)

`Spec/Forget.lean`: expressions without any state; programs in which variables never change. C96 is the counterpart of C95: with the copies of the code as it is written (`noGuide`: only the deduction guide lazy.h:23-24 is left out), every lazy function is such an expression. The exact condition `Forgets` shows which of the by-value parameters suffice: that of
`unregularized_void` alone; that of `unwrap_value` alone; or the decay copy of `std::bind_front` together with the parameters of the closure, or of all adaptors. Proof: objects are equal afterwards to what they were, by induction on objects, so that only the first evaluation of a new object is left. `C95_in_memory_partial` and `C96_in_memory` are both at memory level, through `C80_composed`.

### Replacing lazy functions (C97, C98)

`Spec/Refactor.lean`: what can be seen of a program (`Looks`), tests of a single variable, and the composition of two functions. C97 says that behaviour towards tests is all there is to a lazy function: tests of one variable at a time decide about all programs. Proof: being indistinguishable (`Alike`) is closed under what any test does
(the log has no influence, `LazyLog`), and `Cong`, equality up to indistinguishable parts, is preserved by evaluation, by induction on its derivation, for every glue. C98 is an application: a bisimulation between the object with one function and the one with two, whose caches are related by `f`; it holds exactly as far as the
inner comparison never hides a difference from `f`. The objects after a call stay related unless the outer one keeps its result but not its dependencies; two programs show that nothing else will do (`C98_exact`).

`C97_seen` (`Spec/RefactorSeen.lean`): the same if the answers are compared as far as a client may look at them, i.e. without the values of dangling results. Evaluation does not look at these either (`tail_sight`). With the memory-level refinement of C80 this is C97 for programs whose objects are in memory (`C97_in_memory`).

### Constants (C99)

`Spec/Constants.lean`: a function with one argument filled in (`Specializes`; the place is arbitrary, `ins`). Proof: evaluating the dependencies with the constant among them is evaluating them without, and inserting (`deps_ins`, by induction on the place), and the two objects stay related by every call, for every glue under which constants
do not dangle. The probe `lazy(f, 3)` shows that it fails for all others. Comparisons of results are among the events that stay the same, unlike in C98.
All constants at once (`Spec/Folded.lean`, `C99_all_partial`): the same with a list of insertions, which covers a function of constants only, too.

### Results of two types (C100)

`Model/Convert.lean`: the evaluation of `Model/Lazy.lean`, with a conversion and a comparison for each user function at lazy.h:58-59. `Spec/Convert.lean`: the program with functions that convert their results themselves. Proof: objects with the conversions moved into their functions (`convO`) evaluate alike, by mutual induction on objects and lists of dependencies, and so do
programs; comparisons are left out of the comparison of logs, because their right operands have different types. `C100_same`: without conversions the two models agree.

### Programs of the same meaning (C101)

`Spec/Meaning.lean`: pairs of programs, over different worlds and own states, whose declarations have equal eager values. Proof: `reach_eval` (from the proof of C04) gives each call in terms of the eager value and what is observed; that agrees by induction on the programs, and what has been seen of each variable (`track`, from the proof of C11) gives the
reports of change. `Alongside.more`: the same continuation of two programs of the same meaning has the same meaning, by induction on arguments. `Proofs/MeaningThrow.lean`: the same with the proof of C50 instead of C04.

### Where values are stored with the Microsoft compiler (C102)

`Model/MsOffsets.lean`: offsets of base classes and members in the classes of `Model/MsLayout.lean`, down to the values. `Spec/MsOffsets.lean`: offset of a member of a struct (`structAt`), and what storage has to satisfy (`Stored`). Proof: the partition puts the empty types first, which leave the size at 0; the others follow in order, by
induction on the list; all offsets inside an element are 0. For `uncapture` by induction on the values. Alignments are powers of two, so that the strictest is a multiple of all.

### Where values are stored with the Itanium C++ ABI (C103)

`Model/Offsets.lean`: offsets of base classes and members in the classes of `Model/Layout.lean`, down to the values. `Spec/Offsets.lean`: `Apart`, intervals of bytes. Nothing is assumed about empty subobjects, so that offsets are not those of a struct in general (C32); but a base class that is not empty is never put before the end of what is
there (`memberOffset_spec`), from which the rest follows by induction on the base classes and going up from the value to the object.

### Where the state of lazy functions is stored (C104)

`Model/MsState.lean`: the objects of lazy.h again, with the offsets of everything that has bytes of its own. `Spec/MsState.lean`: what a tree consists of (`pieces`), and `OneByOne`, intervals of bytes. Proof: for each of the combinators the parts of the whole are those of the elements, moved to where C102 puts the elements; by induction on the tree.

With the Itanium C++ ABI likewise (`Model/State.lean`, `Spec/State.lean`), from C103. Where a base class contains state (`unwrap_value`), the state is inside its size without tail padding (`bound_apart`), which is all that is reserved for a base class.

### Bound callables bound again (C105)

`Model/BindChain.lean`: layers of bound values as values, where a layer does to callable, values and arguments what C25 says of it in memory. `Spec/BindChain.lean`: a function with values before and behind the arguments (`Plain`), what layers amount to (`Chain.plain`), and what one would expect (`Chain.ideal`). Proof: by induction on the layers, a call of
the chain changes what it amounts to as a direct call does; then by induction on the calls. The connection with memory: among the values in memory there are bound callables (`Embedding`, with `Tree` as an instance), and binding values to such an object is one more layer, by C25; lvalue arguments of a call are in memory afterwards as `Chain.call` says (`C105_arguments_front`, `C105_arguments_back`; `Proofs/BindArgs.lean`). Not modelled: several layers in one memory, with the inner one taken apart into its objects.

### Sizes with two compilers (C106)

`Spec/SameLayout.lean`: the user's types take the same with both (`Alike`). `Props/SameLayout.lean`: both models of layout (`Lay`, `Ms`) have been shown to give what a plain struct takes (C32, C55, C65; C86) and to store the same pieces (C104); so they agree. The two models of layout share rounding up and the trees only. `Proofs/OffsetsExact.lean`: the offsets of the elements of tuples and of the callable and the tuple of bound callables (`Model/Offsets.lean`) are exactly those of the members of a plain struct, as they are under the Microsoft C++ ABI (C102); so those agree as well. Likewise for the callables of `overload` that are not empty. `Proofs/SameOffsets.lean`: by induction over trees, all pieces of whole lazy functions are at the same offsets (C106_offsets).

### Lazy functions as nested structs (C107)

`Spec/Nested.lean`: what is at which offset in nested structs (`nest`, `LTree.places`), given sizes and alignments only. `Proofs/Nested.lean`: by induction over trees, what each function of lazy.h and regular_void.h adds is a struct or nothing. With the Itanium C++ ABI it follows with C106_offsets. The class hierarchies of the two models (`Model/State.lean`, `Model/MsState.lean`) do not occur in the specification.

## 3. What is modelled, per header

| header | modelled | not modelled |
|---|---|---|
| `apply.h` | `apply` for both kinds of tuple (`Model/Apply.lean`) | constraints (`tuple_like`) as a source of ill-formedness |
| `bind_tuple.h` | both operators, both call paths, `get` on bound callables, copies of callables (`Model/Bind.lean`); trailing return types, i.e. which calls are accepted, compile and with what type (`Model/Signature.lean`) | overload resolution inside user callables (a callable is given by what it accepts, `Sig`, any function of types) |
| `compressed_tuple.h`, `fwd_capture.h` | construction, deduction of element types, `get`, `tuple_size`, `tuple_element` (`Model/CompressedTuple.lean`); layout (`Model/Layout.lean`) | functions, arrays as elements; converting constructors |
| `concepts.h` | `lazy_function`, `std::invocable` use as capabilities of a dependency (`Caps` in `Model/Lazy.lean`); `tuple_like` (`Model/Concepts.lean`); user-defined lazy functions (`Model/UserLazy.lean`) | `lazy_result` members that are neither values nor `bool` |
| `empty_object.h` | the address `get()` reads from (`Model/EmptyObject.lean`, layout as in `Model/Layout.lean`); in the tuple model its result is a new temporary | object lifetime inside the union: no `T2` lives there, so by the letter of C++ `get()` is undefined; the model assumes it works as its author intends |
| `forward_like.h`, `utils.h` | type computation and `forward_like`, `as_nonconst`, `idx_t` (`Model/ForwardLike.lean`, `Model/Cxx.lean`) | `volatile` member access |
| `lazy.h` | all functions, twice: `Model/Lazy.lean`; `Model/LazyMem.lean`, `Model/LazyMake.lean`, `Model/LazyAs.lean`; what compiles, with what types: `Model/Typing.lean`; results of two types: `Model/Convert.lean` | functions returning references (a reference is copied on the way, F9) (`operator!=` and copies of results that throw or have effects are in `Model/LazyEff.lean` and `Model/EffHistory.lean`; moves that throw are not modelled) |
| `overload.h` | selection (`Model/Overload.lean`), base order and constructors of the MSVC variant (`Model/MsMake.lean`) | conversion ranking inside C++ (an arbitrary order) |
| `pack_algorithms.h`, `tuple_algorithms.h`, `to_tuple.h` | all functions (`Model/Pack.lean`, `Model/Algorithms.lean`, `Model/Apply.lean`) | |
| `partition.h` | all | |
| `recursive.h` | the call operators, selection, recursion (`Model/Recursive.lean`) | |
| `regular_void.h` | both wrappers (`Model/Regularize.lean`), `optional<regular_void>` (`Model/Value.lean`, `Model/RegularVoid.lean`) | |
| `uncapture.h` | storage classes, `>>`, calls (`Model/Uncapture.lean`); layout (`Model/CallableLayout.lean`) | |

Simplifications, also said at the definitions:

* A value is user data, a tuple of values, or `regular_void` (`Val`); a `std::pair` counts as a tuple. Comparison of user data is a pure total
  function (`CxxData.ne`), arbitrary except where a theorem assumes `SoundNe` (equal only if the same) or `ReflNe` (never unequal to itself).
* Threads are modelled separately (`Model/Threads.lean`), signals not. Reentrancy (a user function calling the lazy function it is called from) is modelled separately (`Model/Reentrant.lean`), for the wrapped function and calls without arguments only. Destructors do nothing.
* Copies of user objects copy the value, are recorded (C62-C64) and have no effect of their own; `std::move` leaves an arbitrary moved-from value (parameter `moved`).
* Memory level: a lazy object is one cell; its members are laid out in cells of their own when it is called and written back. Which values
  and callables of the user are of empty type is arbitrary (`Empties`, a parameter of C53, C54 and C61); such elements are not stored but made anew by `get`. The proofs up to C54 call objects as non-const lvalues, C61 covers the others. A copy elided by C++ is a move in the model. Static types are read off objects. Calling an object, or reading a parameter or argument, that does not exist any more is undefined behaviour (`look`, `C54_ended_called`); for the initialisation of parameters from arguments this is not checked.
* Layout: by the rules of the Itanium ABI (C32, C55, C57, C65, C76; there `msvc` stands for the reordering of bases alone), and separately by those of the Microsoft ABI (C86). `int` has size 4. `std::tuple` and lambdas are laid out as
  classes with their elements or captures as members.
* Deep recursion and exhaustion of memory are not modelled.

## 4. Trusted base

Lean 4.33 kernel; the axioms below; the fidelity of the model to the source as listed above, and the reading of C++20 in F3-F9 (F1, F2 are derived).
No axioms are added; no `sorry`, `native_decide` or `bv_decide`.

Axioms each theorem named in MANIFEST.json depends on (namespace `Pigro` omitted):

* `propext`, `Classical.choice`, `Quot.sound`: `C02_exact`, `C04_exact`, `C04_fresh_partial`, `C05_dropped_reinvokes_all`, `C05_exact`, `C05_exact_recalculation_partial`, `C05_no_reevaluation_partial`, `C09_early_cutoff_partial`, `C10_comparisons_exact_partial`, `C11_dropped_always_changed`, `C11_exact`, `C16_exact_nonvoid`, `C18_exact`, `C18_own_state_persists_partial`, `C19_dropped_never_holds`, `C19_exact`, `C50_exact`, `C50_fresh_unless_thrown_partial`, `C56_evaluated_twice`, `C56_once_per_path_partial`, `C60_compiles_partial`, `C60_exact`, `C60_tuple_rejected`, `C69_argument_frozen`, `C69_direct_partial`, `C69_documented_frozen`, `C69_frozen`, `C72_pictured_draws_always`, `C72_unchanged_world`, `C73_bug`, `C73_no_bug`, `C74_pinned`, `C74_same`, `C75_general`, `C75_once_partial`, `C75_same_partial`, `C77_by_call_partial`, `C77_by_ref_exclusive_partial`, `C77_by_ref_not_fresh`, `C77_by_ref_stale`, `C77_once_partial`, `C79_documented_partial`, `C79_lazy_partial`, `C79_loads_partial`, `C93_doubling_partial`, `C93_not_linear`, `C93_unchanged_partial`, `Cxx.C105_arguments_back`, `Cxx.C105_arguments_front`, `Cxx.C105_exchange`, `Cxx.C105_first_call`, `Cxx.C105_front`, `Cxx.C105_layer_back`, `Cxx.C105_layer_front`, `Cxx.C105_layers_partial`, `Cxx.C105_merge`, `Cxx.C105_unchanging`, `Cxx.C22_alive`, `Cxx.C22_any_state_partial`, `Cxx.C22_bind_front_partial`, `Cxx.C22_idx_argument`, `Cxx.C23_any_state_partial`, `Cxx.C23_bind_back_partial`, `Cxx.C25_direct_front`, `Cxx.C25_state_back_partial`, `Cxx.C25_state_kept_front`, `Cxx.C26_forwarding_back_partial`, `Cxx.C26_forwarding_front_partial`, `Cxx.C27_get_constructed`, `Cxx.C27_get_partial`, `Cxx.C28_write_access`, `Cxx.C29_aliasing`, `Cxx.C30_empty_differs`, `Cxx.C30_get_type_partial`, `Cxx.C31_deep_const`, `Cxx.C33_consistent`, `Cxx.C34_forward_like`, `Cxx.C43_apply`, `Cxx.C43_apply_get`, `Cxx.C43_apply_std`, `Cxx.C44_empty_dangles`, `Cxx.C44_to_tuple_partial`, `Cxx.C44_to_tuple_std`, `Cxx.C45_enumerate_n`, `Cxx.C49_calls_partial`, `Cxx.C49_regularized_partial`, `Cxx.C49_round_trip_partial`, `Cxx.C52_rvalue_reference_owned`, `Cxx.C58_back_partial`, `Cxx.C58_back_sound`, `Cxx.C58_front_exact`, `Cxx.C58_front_partial`, `Cxx.C58_front_sound`, `Cxx.C61_const_compiles`, `Cxx.C62_no_copies`, `Cxx.C63_back_copies`, `Cxx.C63_front_no_copies_partial`, `Cxx.C63_front_partial`, `Cxx.C64_one_copy_partial`, `Cxx.C64_rvalues_copied`, `Cxx.C87_bound`, `Cxx.C87_bound_copies`, `Cxx.C87_overload`, `Cxx.C87_overload_copies`, `Eff.C81_fresh_partial`, `Eff.Opt.C84_first`, `Eff.Opt.C84_fresh_partial`, `Eff.Opt.C84_recalc`, `Eff.Opt.C84_sound_iff`, `LM.C101_in_memory_partial`, `LM.C53_call_dangles`, `LM.C53_call_eager`, `LM.C53_pinned`, `LM.C53_without_guide`, `LM.C54_untouched`, `LM.C54_variables_exist`, `LM.C61_call_dangles`, `LM.C61_call_eager`, `LM.C61_same`, `LM.C78_memory`, `LM.C80_composed`, `LM.C80_copies_reinvoke`, `LM.C80_dangles`, `LM.C80_defined`, `LM.C80_fresh`, `LM.C80_half_repaired_stale`, `LM.C80_others_untouched`, `LM.C80_recalculation`, `LM.C82_in_memory`, `LM.C89_between`, `LM.C89_call`, `LM.C89_every_call`, `LM.C89_not_linear`, `LM.C92_between`, `LM.C92_doubling`, `LM.C92_lazy`, `LM.C92_make`, `LM.C92_not_linear`, `LM.C92_program`, `LM.C95_in_memory_partial`, `LM.C96_in_memory`, `LM.C97_in_memory`, `LM.C98_in_memory_partial`, `LM.C99_all_in_memory_partial`, `LM.C99_in_memory_partial`, `Lay.C103_bound`, `Lay.C103_tuple`, `Lay.C103_uncapture`, `Lay.C104_no_smaller`, `Lay.C104_state`, `Lay.C106_bound_offsets_partial`, `Lay.C106_bound_partial`, `Lay.C106_lazy`, `Lay.C106_offsets`, `Lay.C106_overload_offsets_partial`, `Lay.C106_overload_partial`, `Lay.C106_pieces`, `Lay.C106_tuple_offsets_partial`, `Lay.C106_tuple_partial`, `Lay.C107_cache_first`, `Lay.C107_inside`, `Lay.C107_itanium`, `Lay.C107_ms`, `Lay.C32_bound_size_partial`, `Lay.C32_size_partial`, `Lay.C32_size_plain`, `Lay.C55_function_costs_int`, `Lay.C55_no_functions_partial`, `Lay.C55_size`, `Lay.C57_nonempty_misses`, `Lay.C65_overload_size`, `Lay.C76_caches_take_space`, `Lay.C76_functions`, `Lay.C76_padding`, `Lay.C76_smaller_partial`, `Lay.C76_strictly_partial`, `Mng.C101_flags_partial`, `Mng.C101_rearranged_partial`, `Mng.C101_results_partial`, `Mng.C101_throwing_partial`, `Ms.C102_bound`, `Ms.C102_bound_tuple`, `Ms.C102_overload`, `Ms.C102_overload_empty`, `Ms.C102_tuple`, `Ms.C102_uncapture`, `Ms.C104_no_smaller`, `Ms.C104_state`, `Ms.C86_bound_size`, `Ms.C86_empty_object`, `Ms.C86_empty_object_outside`, `Ms.C86_lazy_size`, `Ms.C86_overload_size`, `Ms.C86_tuple_size`, `Ms.C86_uncaptured_bytes`, `Ms.C86_uncaptured_declared`, `Ms.C86_uncaptured_size_partial`, `Ovl.C40_msvc_construct`, `Re.C83_bottomless`, `Re.C83_pinned_bottomless`, `Re.C83_settled_partial`, `Rem.C95_exact`, `Rem.C95_memory_partial`, `Res.C91_asked`, `Res.C91_at_most`, `Res.C91_by_reference`, `Res.C91_constants`, `Res.C91_first`, `Res.C91_settled`, `Rfc.C99_all_partial`, `Spc.C88_constructor_memory`, `TL.C38_stable_partition_unique`, `TL.C39_filter_if_unique`, `Thr.C85_first_races`, `Thr.C85_polls_race`, `Thr.C85_same_iff`, `Unc.C47_storage_distinct_partial`, `Unc.Mk.C90_call`, `Unc.Mk.C90_made`, `Unc.Mk.C90_many`, `Unc.Mk.C90_none`, `Unc.Mk.C90_not_linear`, `Unc.Mk.C90_one`.
* `propext`, `Quot.sound`: `C02_call_once_partial`, `C02_dropped_reinvokes`, `C02_pinned_reinvokes`, `C03_value_deps_once_partial`, `C04_half_fixed_stale`, `C04_lone_tuple`, `C04_pinned_never_returns`, `C06_runs_iff_changed`, `C07_deps_once_in_order`, `C08_plain_functions_never_cached`, `C08_shape_reachable`, `C10_comparisons`, `C11_is_changed_partial`, `C12_void_changed_once_partial`, `C12_void_returns_nothing`, `C13_copies_independent`, `C13_dependency_copies_independent`, `C14_exception_reaches_caller`, `C14_first_throw_reevaluates_partial`, `C14_throw_keeps_cache`, `C16_copies_dangle`, `C16_exact`, `C16_no_dangling_partial`, `C16_pinned_dangles`, `C17_arguments_as_is_partial`, `C17_lone_tuple_unpacked`, `C19_state_survives_partial`, `C20_only_facades`, `C21_each_function_at_most_once`, `C42_any_iff`, `C42_any_short_circuit`, `C50_stale_after_dependency_throw`, `C51_effects_are_the_invocations`, `C56_at_most_once_per_path_partial`, `C56_two_values`, `C59_events`, `C59_results`, `C68_comparisons_partial`, `C68_first_design_fresh`, `C68_same_partial`, `C70_at_least`, `C70_at_most`, `C70_chain`, `C70_fresh`, `C70_polls`, `C70_same_partial`, `C71_conservative`, `C71_dishonest_stale`, `C71_flags_decide`, `C71_fresh_partial`, `C71_pinned_dangles`, `C72_pinned`, `C72_same_partial`, `C73_same_partial`, `C73_two_flags`, `C74_no_values`, `C75_pinned`, `C78_moves`, `C78_moves_that_copy`, `C79_pinned`, `C79_value`, `C82_any_order`, `C82_interference`, `C82_readers`, `C93_call`, `Con.C66_decides_partial`, `Con.C66_own_operator`, `Con.C66_tuple_like`, `Cvt.C100_converted`, `Cvt.C100_same`, `Cxx.C24_bind_back`, `Cxx.C27_default_length`, `Cxx.C33_traits`, `Cxx.C36_const_fallback`, `Cxx.C36_selection`, `Cxx.C36_self_as_called_partial`, `Cxx.C45_enumerate_pack`, `Cxx.C58_bind_back_partial`, `Cxx.C62_bind_back`, `Cxx.C64_reference_types`, `Eff.C67_propagates`, `Eff.C67_refines`, `Eff.C67_retry_partial`, `Eff.C81_meddling`, `Eff.C81_refines`, `Eff.Opt.C84_first_poll`, `Eff.Opt.C84_pinned`, `Eff.Opt.C84_plain`, `Eff.Opt.C84_settled_iff`, `Eff.Opt.C84_stale`, `Eff.Opt.C84_wasteful`, `Fgt.C96_anew`, `Fgt.C96_exact`, `LM.C80_as_written`, `LM.C80_empty_constant_dangles`, `LM.C89_chain`, `LM.C92_chain`, `Lay.C103_nested`, `Lay.C32_addresses`, `Lay.C32_bound_empty`, `Lay.C32_tuple_empty`, `Lay.C57_offsets_placed`, `Lay.C57_reads_the_base`, `Lay.C65_overload_empty`, `Lay.C65_recursive_empty`, `Lay.C65_recursive_size`, `Lay.C65_uncaptured_empty`, `Lay.C65_uncaptured_size`, `Mng.C101_half_repaired`, `Ms.C102_nested`, `Ovl.C40_msvc_same`, `Ovl.C40_order_independent`, `Ovl.C40_selects_best`, `Re.C83_caught`, `Re.C83_compiles`, `Re.C83_factorial`, `Re.C83_plain`, `Re.C83_stale_answer`, `Re.C83_uncached`, `Rec.C37_computes`, `Rec.C37_deterministic`, `Rec.C37_fixed_point`, `Rec.C37_terminates`, `Res.C91_results`, `Rfc.C97_context`, `Rfc.C97_seen`, `Rfc.C98_exact`, `Rfc.C98_one_or_two_partial`, `Rfc.C99_constant_partial`, `Rfc.C99_exact`, `Spc.C88_bound`, `Spc.C88_bound_lvalues`, `Spc.C88_constructible`, `Spc.C88_constructor`, `Spc.C88_lazy_not_assignable`, `Spc.C88_lazy_partial`, `Spc.C88_tuple`, `Spc.C88_uncaptured`, `Spc.C94_exact`, `Spc.C94_rejected`, `Spc.C94_usable`, `Spc.C94_void`, `TL.C38_stable_partition`, `TL.C39_filter_if`, `Thr.C85_alone`, `Thr.C85_as_written`, `Thr.C85_distinct_partial`, `Thr.C85_locked`, `Thr.C85_pinned`, `Thr.C85_settled_partial`, `Thr.C85_stale`, `Unc.C47_wrapped_collides`.
* `propext`: `C01_construction_evaluates_nothing`, `C01_construction_in_any_history`, `C14_stale_after_throw`, `C15_dependency_throws`, `C18_pinned_forgets`, `C20_classification`, `C20_effect`, `C20_unambiguous`, `C20_void_dependency_rejected`, `C41_lone_tuple_unpacked`, `C41_transform_partial`, `C41_transform_pure_partial`, `C68_after_throw`, `C68_dependency_goes_on`, `C68_goes_on`, `C68_more_comparisons`, `C69_documented_stale`, `C70_effects`, `C70_lone_tuple`, `C72_caught`, `C72_pictured_frozen`, `C73_pinned`, `C74_mixed`, `C75_changing_image`, `C75_value`, `C78_absent`, `C78_destroyed`, `C78_moved_from_stale`, `C79_nan`, `Con.C66_hard_error`, `Con.C66_other_operators`, `Cvt.C100_not_missed`, `Cvt.C100_overreported`, `Cxx.C105_arguments_changed`, `Cxx.C105_arguments_kept`, `Cxx.C105_two_backs`, `Cxx.C25_own_state_lost`, `Cxx.C27_lone_compressed_tuple`, `Cxx.C34_like`, `Cxx.C35_as_nonconst`, `Cxx.C49_argument_change_lost`, `Cxx.C49_own_state_lost`, `Cxx.C58_const_object`, `Cxx.C58_rvalue_arguments`, `Eff.C67_caches`, `Eff.C67_own_cache_partial`, `Eff.C67_stale`, `Eff.C81_blind`, `Eff.C81_stale`, `Eff.Opt.C84_differs`, `Eff.Opt.C84_self`, `LM.C54_ended_argument`, `LM.C54_ended_called`, `LM.C78_absent`, `LM.C78_destroyed`, `Lay.C106_clash`, `Lay.C32_clash`, `Lay.C65_clash`, `Mng.C101_order_after_throw`, `Ms.C86_declarations_needed`, `Ms.C86_overload_large_empty`, `RV.C48_optional_regular_void`, `Re.C83_bound`, `Re.C83_pinned`, `Rem.C95_nan`, `Rfc.C98_looking_around`, `Rfc.C98_pinned`, `Rfc.C98_throwing`, `Rfc.C99_not_polled`, `Rfc.C99_pinned`, `TL.C39_concat`, `TL.C39_negation`, `Unc.C46_values_appended`, `Unc.C46_values_by_reference`, `Unc.C47_class_of`.
* no axioms: `Cxx.C58_bind_back_type`, `Lay.C57_offsets`.
