{"id": "C01", "title": "Building a lazy function evaluates nothing", "statement": "pigro::lazy(f, deps...) never invokes f, never invokes any dependency and never compares two values, however deeply the dependencies are themselves lazy; the world the functions observe is untouched until the first call.", "quantifier": "every function, every list and nesting of value, function and lazy dependencies, every world state", "why_tests_cant": "the dependency structure is unbounded; a test fixes one shape and one counter", "anchors": ["src/pigro/lazy.h: pigro::lazy, detail::lazy, ensure_lazy, unwrap_value"]}
{"id": "C02", "title": "A lazy function without dependencies runs its function at most once", "statement": "After auto g = pigro::lazy(f), over any number n >= 1 of calls g(), interleaved with arbitrary changes of the outside world, f is invoked exactly once and every call returns the value of that first invocation.", "quantifier": "every function f (pure or not), every number of calls, every interleaved sequence of outside changes", "why_tests_cant": "the number of calls and the interleavings are unbounded", "anchors": ["src/pigro/lazy.h: detail::lazy (cache), unwrap_value, pigro::lazy", "docs/walkthrough/call_once.md", "docs/walkthrough/caching.md"]}
{"id": "C03", "title": "Value dependencies never cause a re-evaluation", "statement": "A lazy function all of whose dependencies are plain values invokes its function exactly once over any number n >= 1 of calls, with exactly those values as arguments.", "quantifier": "every function, every list of value dependencies, every number of calls", "why_tests_cant": "number of values and of calls unbounded", "anchors": ["src/pigro/lazy.h: ensure_lazy(auto dep), lazy_value, detail::lazy", "docs/walkthrough/syntactic_sugar.md"]}
{"id": "C04", "title": "A call returns what eager evaluation would return now", "statement": "For functions that are deterministic in their arguments, every call of a lazy function returns exactly the value obtained by evaluating its whole dependency tree eagerly at the time of the call, in every history of constructions, copies, calls, and outside changes.", "quantifier": "every dependency tree, every history of construct / copy / call / outside-change operations", "why_tests_cant": "staleness bugs show only in particular histories; the set of histories is infinite", "anchors": ["src/pigro/lazy.h: detail::lazy, unwrap_value, ensure_lazy, pigro::lazy", "src/pigro/bind_tuple.h: bind_back_tuple, bind_front_tuple", "docs/walkthrough/dependencies.md"]}
{"id": "C05", "title": "No re-evaluation when the dependencies evaluate to the same values", "statement": "If, at a call after the first, every dependency evaluates to the value it had at the previous evaluation, the wrapped function is not invoked and the previous value is returned.", "quantifier": "every dependency tree, every prior history, every world in which the dependencies yield the same values", "why_tests_cant": "needs every history and every dependency tree", "anchors": ["src/pigro/lazy.h: detail::lazy (changed)", "docs/README.md: Features", "docs/walkthrough/dependencies.md"]}
{"id": "C06", "title": "The wrapped function runs exactly when it is the first call or a dependency reports a change", "statement": "In one call the wrapped function is invoked once if nothing is cached or if some dependency reports is_changed, and not at all otherwise.", "quantifier": "every cache state, every combination of dependency results, arbitrary (impure, throwing) functions", "why_tests_cant": "all combinations of flags for any number of dependencies", "anchors": ["src/pigro/lazy.h: detail::lazy lines 51-60"]}
{"id": "C07", "title": "Every dependency is evaluated exactly once per call, left to right, before the function", "statement": "One call evaluates each plain-function leaf of the dependency tree exactly once, in left-to-right depth-first order, whatever is cached; the wrapped function runs after all its dependencies.", "quantifier": "every dependency tree, every cache state, every world", "why_tests_cant": "order and multiplicity for arbitrary trees and cache states", "anchors": ["src/pigro/lazy.h: detail::lazy line 51", "docs/walkthrough/comparisons.md (note: double call optimized to a single call)"]}
{"id": "C08", "title": "Plain function dependencies are never cached", "statement": "A plain function passed as dependency is invoked at every call of the lazy function, and the lazy function sees the value it returns now.", "quantifier": "every dependency function and every sequence of calls and outside changes", "why_tests_cant": "unbounded sequences", "anchors": ["src/pigro/lazy.h: ensure_lazy(std::invocable auto dep)"]}
{"id": "C09", "title": "A lazy dependency that re-evaluates to an equal value does not propagate", "statement": "If the inputs of a lazy dependency change but its re-evaluated value compares equal to its previous one, the functions depending on it are not re-invoked (given their other dependencies did not change).", "quantifier": "every node with any number of dependencies, every history", "why_tests_cant": "early cut-off must hold at every level of an arbitrary tree", "anchors": ["src/pigro/lazy.h: detail::lazy line 58", "docs/README.md: Features"]}
{"id": "C10", "title": "Values are compared only when re-evaluated and a previous value exists", "statement": "In one call, a node compares its result with the cached one exactly once if it re-evaluated and had a cached value, and never otherwise; no dependency value is compared by its dependents.", "quantifier": "every tree, cache state and world", "why_tests_cant": "comparison counts for arbitrary trees", "anchors": ["src/pigro/lazy.h: detail::lazy line 58", "docs/walkthrough/comparisons.md"]}
{"id": "C11", "title": "is_changed means: first evaluation, or different from the previously returned value", "statement": "The result of calling a lazy function with nullptr has is_changed == true iff the node had no value before or the value now returned compares different from the value returned by the previous evaluation.", "quantifier": "every node, every pair of consecutive evaluations in every history", "why_tests_cant": "all histories", "anchors": ["src/pigro/lazy.h: detail::lazy, LazyResult"]}
{"id": "C12", "title": "Lazy void functions run once per change of their dependencies and return void", "statement": "pigro::lazy of a void function returns void from g(), runs its function under the same conditions as a value function, reports is_changed only on its first evaluation, and passes regular_void to dependents.", "quantifier": "every void function, every dependency list, every history", "why_tests_cant": "unbounded histories; the change flag of void nodes is not observed by tests at all", "anchors": ["src/pigro/lazy.h", "src/pigro/regular_void.h: regularized_void, unregularized_void, optional<regular_void>"]}
{"id": "C13", "title": "Copies of a lazy function are independent", "statement": "Copying a lazy function (explicitly or by passing it as dependency) copies its cached state; later calls on one copy do not change the results, the caches or the number of evaluations of the other.", "quantifier": "every object, every interleaving of calls on original and copy", "why_tests_cant": "all interleavings", "anchors": ["src/pigro/lazy.h: by-value parameters of pigro::lazy"]}
{"id": "C14", "title": "If the wrapped function throws, the next call evaluates it again", "statement": "When the wrapped function throws, the exception propagates, the previously cached value stays in place, and the next call with the same dependency values invokes the function again instead of returning the value cached before the failure.", "quantifier": "every node, every history with throwing evaluations", "why_tests_cant": "crash points in every history", "anchors": ["src/pigro/lazy.h: detail::lazy lines 53-60"]}
{"id": "C15", "title": "If a dependency throws, nothing downstream runs", "statement": "When evaluating dependency i throws, dependencies i+1.. are not evaluated, the wrapped function is not invoked, the node's cached value is unchanged and the exception reaches the caller.", "quantifier": "every dependency list, every position of the throwing dependency, every cache state", "why_tests_cant": "all crash points", "anchors": ["src/pigro/lazy.h: detail::lazy line 51"]}
{"id": "C16", "title": "Results never dangle", "statement": "Reading the value of a lazy function's result, directly or inside a dependent lazy function, never reads an object whose lifetime has ended.", "quantifier": "every lazy function, every dependency list, every call", "why_tests_cant": "undefined behaviour may appear to work in any particular run", "anchors": ["src/pigro/lazy.h: LazyResult deduction guides, detail::lazy, lazy_value", "src/pigro/bind_tuple.h: bind_back_tuple"]}
{"id": "C17", "title": "Dependency values reach the function as they are", "statement": "The wrapped function is invoked with exactly one argument per dependency, in order, each equal to the value of that dependency, also when a value is itself a tuple.", "quantifier": "every list of dependencies and of values, including tuple values", "why_tests_cant": "value shapes are unbounded; tests use int only", "anchors": ["src/pigro/lazy.h: detail::lazy lines 55-56", "src/pigro/tuple_algorithms.h: transform"]}
{"id": "C18", "title": "State owned by a wrapped callable persists between evaluations", "statement": "A mutable callable passed to pigro::lazy (as function or as dependency) sees at its (k+1)-th invocation the own state left by its k-th invocation.", "quantifier": "every stateful callable, every number of invocations", "why_tests_cant": "unbounded number of invocations", "anchors": ["src/pigro/lazy.h: detail::lazy, ensure_lazy", "src/pigro/regular_void.h: regularized_void", "src/pigro/bind_tuple.h"]}
{"id": "C19", "title": "The state of a lazy function survives the call", "statement": "What a call computes and caches is stored in the called object: after g() returns, g holds the computed value as its cached value.", "quantifier": "every lazy object and every call", "why_tests_cant": "needs every object shape; also identifies which by-value hand-over loses it", "anchors": ["src/pigro/bind_tuple.h: bind_back_tuple line 46", "src/pigro/lazy.h: lines 38, 50", "src/pigro/regular_void.h: line 29"]}
{"id": "C20", "title": "Dependencies are classified by what they are", "statement": "A dependency that is callable with nullptr yielding a lazy result and callable without arguments is used as a lazy function; one only callable without arguments is polled at each call; anything else is a constant value.", "quantifier": "every combination of the two capabilities", "why_tests_cant": "overload selection by constraints, for every type", "anchors": ["src/pigro/lazy.h: ensure_lazy overloads", "src/pigro/concepts.h: lazy_function, lazy_function_unwrapped"]}
{"id": "C21", "title": "One call invokes each wrapped function at most once", "statement": "In one call of a lazy function, every wrapped function in the tree is invoked at most once and dependents after their dependencies: the sequence of invocations is a subsequence of the depth-first post-order of the tree.", "quantifier": "every tree, cache state, world", "why_tests_cant": "arbitrary trees", "anchors": ["src/pigro/lazy.h: detail::lazy"]}
{"id": "C22", "title": "compressed_tuple >> f puts the bound values first", "statement": "(compressed_tuple{t...} >> f)(args...) invokes f exactly once with t... followed by args..., in order, and returns its result.", "quantifier": "every number of bound values and call arguments, every f", "why_tests_cant": "arity unbounded", "anchors": ["src/pigro/bind_tuple.h: operator>>, bind_front_tuple, bind_back", "src/pigro/apply.h: apply"]}
{"id": "C23", "title": "compressed_tuple << f puts the bound values last", "statement": "(compressed_tuple{t...} << f)(args...) invokes f exactly once with args... followed by t..., in order, and returns its result.", "quantifier": "every number of bound values and call arguments, every f", "why_tests_cant": "arity unbounded", "anchors": ["src/pigro/bind_tuple.h: operator<<, bind_back_tuple", "src/pigro/apply.h: apply"]}
{"id": "C24", "title": "bind_back appends the bound arguments", "statement": "bind_back(f, back...)(front...) invokes f(front..., back...), at every call, with lvalue-bound arguments seen at their current value and rvalue-bound arguments owned by the binder.", "quantifier": "every arity, every sequence of calls and outside modifications of lvalue-bound arguments", "why_tests_cant": "arity and call sequences unbounded", "anchors": ["src/pigro/bind_tuple.h: bind_back", "src/pigro/fwd_capture.h: fwd_capture, access"]}
{"id": "C25", "title": "Stateful callables bound with >> and << keep their state", "statement": "Calling a bound callable repeatedly behaves as calling the stored callable repeatedly: modifications it makes to its own state and to bound values taken by reference are seen by the next call.", "quantifier": "every callable, every sequence of calls", "why_tests_cant": "sequences unbounded", "anchors": ["src/pigro/bind_tuple.h: bind_front_tuple, bind_back_tuple", "tests/bind_tuple.test.cpp: remember_state"]}
{"id": "C26", "title": "Call arguments are perfectly forwarded through >> and <<", "statement": "An lvalue call argument reaches f as an lvalue denoting the same object, an rvalue call argument reaches f as an rvalue.", "quantifier": "every argument value category, constness and position", "why_tests_cant": "all combinations for all arities", "anchors": ["src/pigro/bind_tuple.h: bind_back, bind_front_tuple, bind_back_tuple"]}
{"id": "C27", "title": "get<I> returns the I-th constructed value", "statement": "For every tuple of values, get<I>(compressed_tuple{v...}) is the I-th value, for every I < n; for I >= n the call is not viable.", "quantifier": "every length, every mix of empty and non-empty element types, every index", "why_tests_cant": "unbounded length", "anchors": ["src/pigro/compressed_tuple.h: get, compressed_tuple_element, make_compressed_tuple_base", "src/pigro/pack_algorithms.h: enumerate_pack"]}
{"id": "C28", "title": "Elements are independent and get gives write access", "statement": "Writing through get<I> of a non-const compressed_tuple changes element I, and no other element except references to the same object; a following get<I> reads the written value (non-empty element types).", "quantifier": "every tuple, pair of indices, written value, write sequence", "why_tests_cant": "unbounded", "anchors": ["src/pigro/compressed_tuple.h: compressed_tuple_element", "tests/compressed_tuple.test.cpp: rvalue_reference"]}
{"id": "C29", "title": "Reference elements alias their referent", "statement": "For compressed_tuple<T&>{x}, get observes every later change of x, and writes through get change x; for value elements the tuple owns a copy that is isolated from the source.", "quantifier": "every sequence of writes to source and tuple, every mix of reference and value elements", "why_tests_cant": "unbounded write sequences", "anchors": ["src/pigro/compressed_tuple.h", "src/pigro/fwd_capture.h", "tests/compressed_tuple.test.cpp: lvalue_reference"]}
{"id": "C30", "title": "get has the type std::get would have", "statement": "The type of get<I> on a compressed_tuple lvalue / rvalue / const lvalue / const rvalue equals the type of std::get<I> on the corresponding std::tuple.", "quantifier": "every element type (value, lvalue or rvalue reference, const, volatile) and every value category of the tuple", "why_tests_cant": "tests cover one element type", "anchors": ["src/pigro/compressed_tuple.h: compressed_tuple_element, get", "src/pigro/forward_like.h", "src/pigro/utils.h: as_nonconst", "src/pigro/recursive.h"]}
{"id": "C31", "title": "A const tuple never gives write access to its elements", "statement": "get<I> on a const compressed_tuple always yields a const-qualified access path (or a fresh copy, for empty types), also for elements that are references to non-const objects.", "quantifier": "every element type, both const value categories", "why_tests_cant": "all element types", "anchors": ["src/pigro/compressed_tuple.h: compressed_tuple_element line 28-30", "src/pigro/utils.h: as_nonconst"]}
{"id": "C32", "title": "Empty elements take no space", "statement": "A compressed_tuple (and a callable bound with >> or <<) is an empty class iff all its parts are empty; its size is that of the non-empty parts alone, wherever the empty ones stand.", "quantifier": "every list of element layouts", "why_tests_cant": "unbounded lists of layouts", "anchors": ["src/pigro/compressed_tuple.h", "src/pigro/overload.h", "src/pigro/partition.h: partition_t", "src/pigro/empty_object.h"]}
{"id": "C33", "title": "tuple_size, tuple_element and rebind agree with std::tuple", "statement": "std::tuple_size and std::tuple_element of a (cv-ref qualified) compressed_tuple<Ts...> are those of std::tuple<Ts...>; get, tuple_size and tuple_element are consistent with each other.", "quantifier": "every type list, index and qualification", "why_tests_cant": "unbounded type lists", "anchors": ["src/pigro/compressed_tuple.h: std::tuple_size, std::tuple_element", "src/pigro/utils.h: rebind_container"]}
{"id": "C34", "title": "forward_like transfers exactly the qualification of its first argument", "statement": "like_t<From, To> has To's unqualified type with exactly From's const, volatile and reference qualification; forward_like is well-formed iff it would not turn an rvalue into an lvalue and would not drop const or volatile, and it denotes the same object.", "quantifier": "every pair of cv-ref qualified types", "why_tests_cant": "all combinations over every base type", "anchors": ["src/pigro/forward_like.h"]}
{"id": "C35", "title": "as_nonconst removes cv and keeps the value category", "statement": "as_nonconst(x) denotes the same object as x, with const and volatile removed, as an lvalue for lvalues and an xvalue for rvalues.", "quantifier": "every type, every qualification, every value category", "why_tests_cant": "all combinations", "anchors": ["src/pigro/utils.h: as_nonconst"]}
{"id": "C36", "title": "recursive passes itself with its own value category and constness", "statement": "Calling a recursive{f} object passes the object itself as first argument, with the value category and constness of the call expression, and invokes f with the same qualification.", "quantifier": "all four ref/const qualifications", "why_tests_cant": "overload selection", "anchors": ["src/pigro/recursive.h"]}
{"id": "C37", "title": "recursive computes the fixed point of its function", "statement": "recursive{f}(args) returns what f returns when its self parameter denotes recursive{f} itself, at any recursion depth; if the recursion is well-founded the call terminates.", "quantifier": "every function body making any number of self calls, every argument, any recursion depth", "why_tests_cant": "unbounded depth", "anchors": ["src/pigro/recursive.h"]}
{"id": "C38", "title": "partition is a stable partition of a type list", "statement": "partition(list, p) lists the types satisfying p followed by those not satisfying p, each group in the original order, nothing lost, added or duplicated.", "quantifier": "every type list and predicate", "why_tests_cant": "unbounded lists", "anchors": ["src/pigro/partition.h"]}
{"id": "C39", "title": "filter_if keeps exactly the types satisfying the predicate, in order", "statement": "filter_if(list, p) is the subsequence of the types satisfying p; filter_if(list, !p) its complement; !!p is p; concat is concatenation.", "quantifier": "every type list and predicate", "why_tests_cant": "unbounded lists", "anchors": ["src/pigro/partition.h"]}
{"id": "C40", "title": "overload calls the best match regardless of declaration order and of base reordering", "statement": "The callable selected by overload{f...}(args) (or ambiguity, or no match) does not depend on the order of f..., in particular not on the partition the MSVC variant applies to its bases.", "quantifier": "every candidate set, every ranking, every permutation", "why_tests_cant": "all permutations of all sizes", "anchors": ["src/pigro/overload.h", "src/pigro/partition.h"]}
{"id": "C41", "title": "transform maps element-wise, in order", "statement": "transform(t, p) is the tuple of p applied to each element of t, with p invoked exactly once per element from left to right.", "quantifier": "every tuple and projection, including projections that return tuples", "why_tests_cant": "unbounded", "anchors": ["src/pigro/tuple_algorithms.h: transform"]}
{"id": "C42", "title": "any is the short-circuiting disjunction", "statement": "any(t, p) is true iff some element satisfies p; elements are tested left to right, none after the first hit; any of an empty tuple is false.", "quantifier": "every tuple and predicate", "why_tests_cant": "unbounded", "anchors": ["src/pigro/tuple_algorithms.h: any"]}
{"id": "C43", "title": "apply passes the tuple elements in order", "statement": "pigro::apply(f, t) invokes f once with get<0>(t), ..., get<n-1>(t), in order.", "quantifier": "every tuple length and f", "why_tests_cant": "unbounded", "anchors": ["src/pigro/apply.h"]}
{"id": "C44", "title": "to_tuple refers to the elements of its argument", "statement": "to_tuple(t) is a tuple of references, the I-th denoting element I of t, valid as long as t.", "quantifier": "every tuple, including those with empty elements, every value category", "why_tests_cant": "dangling cannot be observed by a test", "anchors": ["src/pigro/to_tuple.h", "src/pigro/apply.h", "src/pigro/compressed_tuple.h"]}
{"id": "C45", "title": "enumerate_pack numbers the pack from zero without touching values", "statement": "enumerate_pack(f, v0, ..., vn-1) invokes f once with items (0, v0), ..., (n-1, vn-1); a tuple argument is one item; lvalues are passed by reference, rvalues as rvalues; enumerate_n<n>(f) numbers and carries 0..n-1.", "quantifier": "every pack", "why_tests_cant": "unbounded", "anchors": ["src/pigro/pack_algorithms.h"]}
{"id": "C46", "title": "uncaptured(v...) >> f appends the values to the arguments", "statement": "(uncaptured(v1,...,vn) >> f)(args...) invokes f(args..., v1, ..., vn); chains of >> nest accordingly; without values it is f.", "quantifier": "every number of values and arguments, every nesting", "why_tests_cant": "unbounded", "anchors": ["src/pigro/uncapture.h"]}
{"id": "C47", "title": "Uncaptured values never collide", "statement": "In any chain of uncaptured values around a callable, the storage base classes are pairwise distinct, even for equal value types.", "quantifier": "every chain length and list of value types", "why_tests_cant": "unbounded", "anchors": ["src/pigro/uncapture.h: unique_tag"]}
{"id": "C48", "title": "optional<regular_void> behaves as an optional of a one-value type", "statement": "Any sequence of constructions, assignments, tests, comparisons and reads of std::optional<regular_void> gives the same answers as an optional holding the unique value of a unit type.", "quantifier": "every operation sequence", "why_tests_cant": "unbounded sequences", "anchors": ["src/pigro/regular_void.h: std::optional<pigro::regular_void>"]}
{"id": "C49", "title": "regularized_void and unregularized_void are transparent", "statement": "regularized_void(f)(args...) invokes f(args...) once and returns its result, or regular_void if f returns void; unregularized_void undoes it: unregularized_void(regularized_void(f)) has f's result type and effects for every f not returning regular_void itself.", "quantifier": "every f, every argument list", "why_tests_cant": "all functions and arities", "anchors": ["src/pigro/regular_void.h"]}
{"id": "C50", "title": "A failing dependency does not make later results stale", "statement": "If a call fails because some dependency throws, the next call that does not fail returns the value of the current dependency values, not one computed from older values.", "quantifier": "every dependency list, every position of the throwing dependency, every history", "why_tests_cant": "needs the conjunction of a change in one dependency and an exception in a later one, in some earlier call", "anchors": ["src/pigro/lazy.h: detail::lazy"]}
{"id": "C51", "title": "The effects of a call are those of the invocations, nothing more", "statement": "Calling a lazy function changes the outside world exactly as running the invoked user functions one after another, once each, with the arguments and own state they were given; constructing and copying lazy functions changes nothing.", "quantifier": "every history, every function with arbitrary effects", "why_tests_cant": "effects may be lost, duplicated or reordered only in particular trees and states", "anchors": ["src/pigro/lazy.h: detail::lazy, lazy"]}
{"id": "C52", "title": "An rvalue reference element takes over the value of its source", "statement": "compressed_tuple<X &&>{x} owns an object holding the value x had; a non-const x of non-empty type is left moved-from; afterwards x and the element are independent.", "quantifier": "every list of element types (no two reference elements with the same source, if one is an rvalue reference), every later state of memory", "why_tests_cant": "unbounded tuples and write sequences", "anchors": ["src/pigro/compressed_tuple.h: compressed_tuple(Ts...), compressed_tuple_element", "src/pigro/fwd_capture.h: fwd_capture", "tests/compressed_tuple.test.cpp: rvalue_reference"]}
{"id": "C53", "title": "Composing the headers preserves behaviour", "statement": "Running any client program on the lazy functions composed from the actual compressed_tuple, binder, recursive, overload and regularized_void objects in memory shows the client the same values, exceptions and undefined behaviour, in the same order, with the same user invocations, as the abstract description of lazy() as a tree with explicit copies and references.", "quantifier": "every client program (constructions, copies, calls, polls, outside changes), any number of dependencies, any nesting, any user functions, any choice of which user types are empty", "why_tests_cant": "an infinite family of template instantiations and histories", "anchors": ["src/pigro/lazy.h: detail::lazy, detail::unwrap_value, lazy", "src/pigro/bind_tuple.h", "src/pigro/compressed_tuple.h", "src/pigro/regular_void.h"]}
{"id": "C54", "title": "No operation disturbs other objects", "statement": "Constructing, copying, calling or polling lazy functions never writes to, moves from, or ends the lifetime of any object that existed before the operation; variables naming lazy functions always designate living objects; no call is made on an object, and no argument read, whose lifetime has ended.", "quantifier": "every client program, every object in memory", "why_tests_cant": "needs observation of all memory after every operation", "anchors": ["src/pigro/lazy.h: detail::lazy, lazy", "src/pigro/bind_tuple.h", "src/pigro/compressed_tuple.h"]}
{"id": "C55", "title": "A lazy function takes only its caches and captured state", "statement": "sizeof a lazy function is that of a struct of its cache (std::optional of the result), the non-empty captures of the wrapped function and, recursively, its dependencies (a value: itself; a plain function: a cache and its captures). Wrappers, tuples, binders, tags and stateless callables add nothing.", "quantifier": "every tree of dependencies, any number and nesting, all user types and layouts", "why_tests_cant": "sizes of an infinite family of types; which subobjects overlap depends on the whole tree", "anchors": ["src/pigro/lazy.h: detail::lazy, lazy_value, ensure_lazy, unwrap_value, lazy", "src/pigro/compressed_tuple.h", "src/pigro/bind_tuple.h", "tests/lazy.test.cpp: memory_footprint"]}
{"id": "C56", "title": "A shared dependency is evaluated at most once per call", "statement": "If one lazy function is a dependency, direct or indirect, of another along several paths, then one call of the latter invokes the function of the former at most once.", "quantifier": "every program, every tree of dependencies, every reachable state", "why_tests_cant": "the number of paths grows exponentially with the depth; tests only use trees without sharing", "anchors": ["src/pigro/lazy.h: lazy (dependencies are captured by copy), detail::lazy, ensure_lazy", "src/pigro/bind_tuple.h"]}
{"id": "C57", "title": "empty_object reads where its type would be", "statement": "The object copied by empty_object<T>::get() lies exactly where the base class T of a T2 in the storage would lie, inside the storage and suitably aligned, for every empty T; the restriction to empty types is needed.", "quantifier": "every empty class type T: any bases, size and alignment; every address of the storage", "why_tests_cant": "the offsets depend on the layout of T, of which there are infinitely many; a wrong read is undefined behaviour and may go unnoticed", "anchors": ["src/pigro/empty_object.h: T1, T2, Storage, get", "src/pigro/compressed_tuple.h: compressed_element"]}
{"id": "C58", "title": "Binders are SFINAE-friendly", "statement": "A call of t >> f, t << f or bind_back(f, ...) takes part in overload resolution exactly if f accepts the bound values and arguments as they are passed to it; then the call compiles, and its type is that of the result of f.", "quantifier": "every callable (any set of accepted signatures, any overloads), every tuple of values, every list of arguments, const and non-const", "why_tests_cant": "template instantiations for infinitely many types; a mismatch shows only for particular overloads", "anchors": ["src/pigro/bind_tuple.h: bind_back, bind_front_tuple, bind_back_tuple (trailing return types)", "src/pigro/apply.h: apply", "tests/bind_tuple.test.cpp: sfinae_friendly"]}
{"id": "C59", "title": "Programs that compile do not go wrong", "statement": "In a program accepted by the compiler, user functions are only invoked with arguments of types they accept, operator!= only on values of the same type, and every call yields a value of the type announced (nothing exactly for void and regular_void).", "quantifier": "every program that compiles, every signature, every history, every order of evaluation and exception, every user functions", "why_tests_cant": "infinitely many programs and types; the caches are type-erased in no place a test could look at", "anchors": ["src/pigro/lazy.h: detail::lazy (result_t, cache, values), lazy_value, ensure_lazy, lazy", "src/pigro/regular_void.h: regularized_void, unregularized_void", "src/pigro/tuple_algorithms.h: transform"]}
{"id": "C60", "title": "lazy(f, deps...) compiles exactly if f accepts the values of its dependencies", "statement": "lazy(f, deps...) is well-formed exactly if f can be called with the values of its dependencies, and its values then have the type f returns (regular_void for void).", "quantifier": "every function signature, every list of dependencies of every type", "why_tests_cant": "well-formedness of infinitely many instantiations; a test that does not compile cannot be run", "anchors": ["src/pigro/lazy.h: detail::lazy (result_t and std::apply), ensure_lazy, lazy", "src/pigro/tuple_algorithms.h: transform"]}
{"id": "C61", "title": "Lazy functions can be called through const references and as temporaries", "statement": "Calling a lazy function that is const, or an rvalue, compiles exactly if calling it as a non-const lvalue does, with the same type of result; it returns the same, has the same effects, and leaves the function and everything else in memory untouched.", "quantifier": "every program, every mixture of constness and value categories of the calls, every history, any moved-from values", "why_tests_cant": "combinations of categories, histories and user types are unbounded; moving from a captured value is only visible in later calls", "anchors": ["src/pigro/lazy.h: unwrap_value, lazy", "src/pigro/regular_void.h: unregularized_void", "src/pigro/bind_tuple.h: bind_back, bind_front_tuple"]}
{"id": "C62", "title": "bind_back makes no copies", "statement": "bind_back(f, back...) moves every rvalue it is given once (copying it only if it is const) and neither copies nor moves lvalues; calls of the result copy and move nothing.", "quantifier": "every callable, every list of arguments of every type, constness and value category, every later call in any state of memory", "why_tests_cant": "argument lists and categories are unbounded; move-only types make a wrong copy a compile error in only some instantiations", "anchors": ["src/pigro/bind_tuple.h: bind_back", "src/pigro/fwd_capture.h: fwd_capture", "tests/bind_tuple.test.cpp: perfect_forward_capture"]}
{"id": "C63", "title": "Calling a bound callable makes no copies", "statement": "A call of t >> f or t << f copies neither the callable nor the bound values nor lvalue arguments; rvalue arguments are moved once.", "quantifier": "every tuple of values, every callable, every list of arguments, const and non-const, any code of f", "why_tests_cant": "the number of constructor calls is only visible to instrumented types, for all argument lists and categories", "anchors": ["src/pigro/bind_tuple.h: bind_front_tuple, bind_back_tuple, bind_back", "tests/bind_tuple.test.cpp: stateful_test (TODO: test whether no copies are being made)"]}
{"id": "C64", "title": "Values put into a tuple are copied or moved as needed", "statement": "Making compressed_tuple{ v... } >> f (or <<) copies every lvalue v once and moves every rvalue v; f is moved if it is an rvalue and referred to if it is an lvalue; nothing else is copied.", "quantifier": "every list of values of every type (empty or not) and category, every callable", "why_tests_cant": "as C63; the tuple is assembled by recursion over an unbounded list of types", "anchors": ["src/pigro/compressed_tuple.h: compressed_tuple, make_compressed_tuple_base, compressed_tuple_element", "src/pigro/bind_tuple.h: operator>>, operator<<", "tests/bind_tuple.test.cpp: stateful_test (TODO: test whether no copies are being made)"]}
{"id": "C65", "title": "overload, recursive and uncaptured callables take no space for what is empty", "statement": "overload{ f... }, recursive{ f } and uncaptured(v...) >> f are empty classes exactly if all f and v are; an overload of callables of which no empty one shares an empty base class with another is as large as a struct of the non-empty ones alone, whether or not the bases are reordered, recursive{ f } is as large as f, and uncaptured(v...) >> f as large as nested structs of the non-empty v and f.", "quantifier": "every list of callables and values, every layout, with and without the MSVC workaround", "why_tests_cant": "layouts and numbers of bases are unbounded; the tests check five combinations", "anchors": ["src/pigro/overload.h: overload, overload_impl", "src/pigro/recursive.h: recursive", "src/pigro/uncapture.h: Uncaptured, CompressedInvocable", "tests/overload.test.cpp: ebo_msvc_workaround"]}
{"id": "C66", "title": "tuple_like decides", "statement": "concepts::tuple_like is satisfied by the types with a std::tuple_size and a std::tuple_element for each index, and not satisfied by all others, so that pigro's operators >> and << leave expressions alone that have operators of their own.", "quantifier": "every type, every number of elements", "why_tests_cant": "that asking is an error for some type cannot be observed by a program that compiles", "anchors": ["src/pigro/concepts.h: has_tuple_element, tuple_like", "src/pigro/bind_tuple.h: operator>>, operator<<"]}
{"id": "C67", "title": "Comparisons and copies of results may throw", "statement": "If a function, the operator!= of a result type or the copying of a result into the cache throws, the exception leaves the call at once, with nothing run after it; no call swallows an exception; the values cached before stay in place unless the failing operation is an assignment to them; and the next call with the same values of the dependencies evaluates the function again.", "quantifier": "every lazy function, every tree of dependencies, every state of caches, any code of functions, comparisons and copies", "why_tests_cant": "every place and every history in which an operation of the user can fail", "anchors": ["src/pigro/lazy.h: detail::lazy lines 53-60"]}
{"id": "C68", "title": "The current design does what the first documented design does", "statement": "Replacing the dependencies_cache of the first documented design by is_changed flags changes nothing a client can observe: every program gives the same results, has the same effects and invokes the same functions in the same order with the same arguments; calls that recompute nothing compare only the results of plain functions, instead of every dependency.", "quantifier": "every program of constructions, copies, calls and changes of the world; any functions, own states and exceptions; any operator== that is an equivalence relation", "why_tests_cant": "two designs compared over all programs and all functions", "anchors": ["docs/walkthrough/dependencies.md: lazy lines 36-51", "docs/walkthrough/comparisons.md: lines 17-40", "src/pigro/lazy.h: detail::lazy lines 46-67"]}
{"id": "C69", "title": "The documented rendering loop follows the drawing mode", "statement": "In the program of 'Reactivity all the way down', every iteration of the rendering loop renders the cursor at the current mouse position with the icon of the current drawing mode.", "quantifier": "any functions in the places of the five documented ones, any changes of what they read between iterations, any number of iterations", "why_tests_cant": "needs every schedule of changes between iterations; a single demonstration run is correct in its first iteration", "anchors": ["docs/walkthrough/reactivity_all_the_way_down.md: lines 12-20", "src/pigro/lazy.h: detail::lazy lines 46-67", "src/pigro/lazy.h: ensure_lazy lines 69-87"]}
{"id": "C70", "title": "The library does what the documented final design does, with one call per dependency", "statement": "The library gives the same results (is_changed included) and invokes the same wrapped functions with the same arguments as the shorter program the documentation presents; only the double call to dependencies(nullptr) is optimized to a single call, so that each plain function is invoked once per call instead of several times.", "quantifier": "all programs of constructions, copies, calls, polls and changes of the world; all trees; all observations before and after", "why_tests_cant": "two programs compared over all histories; the number of repeated invocations grows with the depth of the tree", "anchors": ["docs/walkthrough/comparisons.md: lines 99-100", "docs/walkthrough/final_design.md: lines 18-68", "src/pigro/lazy.h: detail::lazy lines 46-67"]}
{"id": "C71", "title": "Lazy functions of the user's own making can be dependencies", "statement": "Any object that can be called with nullptr, giving something with value and is_changed, can be a dependency: as long as it does not claim to be unchanged when it is not, every call returns the value of the whole tree as of now; and only the claim decides whether the function is called.", "quantifier": "all programs of constructions, copies, calls, polls and changes of the world; arbitrary user-defined lazy functions (stateful, throwing, changing the world) and wrapped functions", "why_tests_cant": "quantifies over all classes a user may write against the concept; the tests use objects made by the library only", "anchors": ["src/pigro/concepts.h: lazy_result, lazy_function lines 8-21", "src/pigro/lazy.h: ensure_lazy lines 78-80", "src/pigro/lazy.h: detail::lazy lines 46-67"]}
{"id": "C72", "title": "The program with lazy functions does what the handwritten program of the README does", "statement": "The two programs the README shows side by side, one with four optional variables and a flag, one with four lazy functions, do the same: in every iteration of the loop they invoke the same functions in the same order with the same arguments.", "quantifier": "all functions (pure or not, with own state, throwing), all changes of the world between iterations, every number of iterations", "why_tests_cant": "equivalence of two programs over all schedules; the programs exist as pictures only", "anchors": ["README.md: lines 10-16", "docs/comparison-handwritten.png", "docs/comparison-using-pigro.png", "src/pigro/lazy.h: detail::lazy lines 46-67"]}
{"id": "C73", "title": "The simplified lazy of the documentation explains the library", "statement": "Programs that wrap functions without dependencies, copy the results and call them do the same with the library as with the simplified versions in the documentation (a flag, or an optional): same results, exceptions, invocations, own states and world. The program with two flags, with its bug fixed, does what its replacement with the library does; as documented it initializes OpenCL once for every visit 'elsewhere' before the first visit of the other place.", "quantifier": "all programs of construction, copy, call and other effects; all functions, throwing or not, pure or not; all sequences of visits", "why_tests_cant": "The documentation's versions are not part of any test, and the tests call one object in fixed orders; copies, exceptions and own state of the functions are not varied together.", "anchors": ["docs/walkthrough/call_once.md: lines 35-117", "docs/walkthrough/caching.md: lines 21-34", "src/pigro/lazy.h: detail::lazy lines 46-67"]}
{"id": "C74", "title": "A value as dependency is short for a lazy function that returns it", "statement": "A program that compiles and the program in which every value dependency is written as lazy([=] { return value; }) return the same results, flags and exceptions, invoke the same functions in the same order with the same arguments and own states, make the same comparisons and leave the same world; the second only calls the lambdas in addition.", "quantifier": "all programs, all functions (pure or not, throwing or not), all values including tuples and regular_void", "why_tests_cant": "The library implements values differently from the documentation (lazy_value instead of a lambda wrapped with lazy), and the flags differ at the first evaluation; no test compares the two over histories with copies and exceptions.", "anchors": ["docs/walkthrough/syntactic_sugar.md: lines 1-29", "src/pigro/lazy.h: lazy_value lines 69-76", "src/pigro/lazy.h: ensure_lazy lines 88-90"]}
{"id": "C75", "title": "A lazy dependency is not evaluated before it is needed, and then once", "statement": "In the rendering loop of the documentation, lazy(load_image, name) as dependency of the cursor loads the image at most once, in the first iteration in which the cursor is visible, and never if it always is hidden, whereas a value dependency loads it before the loop in any case; if the image does not change, both programs otherwise do the same. More generally, in any program value dependencies may be replaced by lazy functions of values that return them.", "quantifier": "all functions (pure or not, throwing or not), all changes of the world between iterations, every number of iterations; all programs for the general claim", "why_tests_cant": "Laziness is about what does not happen: a test can only observe some loop with some visibility pattern, and the two programs are never compared.", "anchors": ["docs/walkthrough/extra_laziness.md: lines 1-26", "src/pigro/lazy.h: detail::lazy lines 46-67", "src/pigro/lazy.h: lazy lines 92-98"]}
{"id": "C76", "title": "A lazy function takes less memory than in the first design", "statement": "sizeof of a lazy function of the library is smaller than that of the closure of the first documented design with the same function and dependencies, which stores the values of its dependencies, by at least what those take in all the lazy functions of the tree.", "quantifier": "all user types, all captures, all trees of dependencies, both orders of base classes, every representation of the cache of the dependencies", "why_tests_cant": "The first design exists in the documentation only; the test memory_footprint states sizes of a few lazy functions and compares them with nothing.", "anchors": ["docs/walkthrough/comparisons.md: lines 24-37, 101", "docs/walkthrough/dependencies.md: lines 37-50", "src/pigro/lazy.h: detail::lazy lines 42-69", "tests/lazy.test.cpp: memory_footprint lines 188-229"]}
{"id": "C77", "title": "Lazy functions can share a lazy function", "statement": "Dependencies are copied; a lazy function is shared by several by passing a function that calls it, or std::ref of it. A lazy function some of whose dependencies are shared returns what eager evaluation of the whole tree, with the shared ones in place, gives at the time of the call, no matter who else calls the shared ones, and a shared one runs its functions once per change for all that use it.", "quantifier": "all shared programs, all programs using them, all histories of calls, polls, copies and changes of the world, including use of the shared variables by others; every number of users", "why_tests_cant": "Whether a cached result is stale depends on who asked last; tests have one user per lazy function, and the failing histories need three parties in a particular order.", "anchors": ["src/pigro/lazy.h: ensure_lazy lines 78-90", "src/pigro/lazy.h: detail::lazy lines 46-67", "src/pigro/lazy.h: lazy lines 96-103"]}
{"id": "C78", "title": "Lazy functions can be moved, returned, and outlive what they were made from", "statement": "A program that moves lazy functions, passes them to pigro::lazy by std::move, returns them and lets variables go out of scope observes the same results, flags, exceptions, invocations, comparisons and world as the program in which every lazy function stays where it is, as long as no variable is used after it has been moved from or destroyed.", "quantifier": "all programs of constructions, copies, moves, ends of lifetimes, calls, polls and changes of the world; all functions; whatever a move leaves behind; all variants of the code, and the pinned code with objects in memory", "why_tests_cant": "A missing copy shows only when the original has died or been moved from, and then as undefined behaviour that may appear to work; tests keep all their variables to the end of the scope.", "anchors": ["src/pigro/lazy.h: lazy lines 96-103", "src/pigro/lazy.h: detail::lazy lines 46-67", "src/pigro/lazy.h: ensure_lazy lines 78-90", "src/pigro/compressed_tuple.h: compressed_tuple_element lines 18-34", "src/pigro/bind_tuple.h: bind_back_tuple lines 36-50"]}
{"id": "C79", "title": "A dependency that never changes may be a function, a value or a lazy function", "statement": "Replacing plain functions that always return the same value by that value, or by lazy functions that return it, changes no result, flag, exception or world and no other invocation or comparison of a program. In the documented loop the image is loaded in every iteration if arrow is a plain function, and once if it is a lazy function.", "quantifier": "all programs of constructions, copies, calls, polls and changes of the world; all sets of functions that always return the same; all lazy functions that return it; all numbers of iterations", "why_tests_cant": "Whether a dependency is polled again, and whether a comparison of the value with itself can have consequences, shows only over whole histories with counted calls; tests call a lazy function two or three times.", "anchors": ["src/pigro/lazy.h: ensure_lazy lines 78-90", "src/pigro/lazy.h: detail::lazy lines 46-67", "docs/walkthrough/dependencies.md lines 24-34, 57-67"]}
{"id": "C80", "title": "The copies are all that keeps lazy functions from working", "statement": "If the parameters on the way to the user's function are references instead of copies, the objects in memory behave as documented, whether results are returned by value or, as now, by reference (unless the function returns void, or a constant is of empty type): every call returns what eager evaluation returns now, invokes exactly the functions with a dependency that has changed, and changes only the called object. Four of the copies have to go, each of them: with any one left, functions are invoked again or stale values returned.", "quantifier": "all client programs of constructions, copies, calls, polls and changes of the world; all choices of which parameters and results are references; all contents of moved-from objects; all choices of which user types are empty", "why_tests_cant": "A test can only be written for one version of the code; that references in place of the copies suffice, whatever the program, and that none of the four may be forgotten, needs a model in which each copy is a parameter.", "anchors": ["src/pigro/bind_tuple.h: bind_back_tuple lines 40-51", "src/pigro/lazy.h: unwrap_value line 38", "src/pigro/lazy.h: detail::lazy line 50", "src/pigro/lazy.h: lazy_value line 70, ensure_lazy line 84", "src/pigro/regular_void.h: lines 16 and 29"]}
{"id": "C81", "title": "Comparisons and copies with effects do not make results wrong", "statement": "Whatever the operator!= and the copying of results do, as long as no function observes it and values found equal are equal, every call returns or throws what evaluating the whole tree eagerly does now, unless it is left with an exception thrown by a comparison or a copy in this very call. Finding differences where there are none only costs invocations.", "quantifier": "all client programs of constructions, copies, calls, polls and changes of the world; any comparisons and copies that throw, have effects, depend on the world or err towards difference", "why_tests_cant": "The operator!= of a result type is arbitrary code run at places the user does not see; the failures depend on which comparison of which node of which tree throws, and when, over whole histories.", "anchors": ["src/pigro/lazy.h: detail::lazy lines 46-67", "src/pigro/lazy.h: unwrap_value lines 36-44"]}
{"id": "C82", "title": "Independent lazy functions do not interfere", "statement": "If the functions of some variables see only part of the world, and the functions of all other variables do nothing that shows in that part, every operation on the former gives the same results, exceptions, invocations and comparisons as in the program from which all operations on the latter have been removed, however they are interleaved.", "quantifier": "all client programs of constructions, copies, calls, polls and changes of the world; all functions; all splits of the variables and all parts of the world; all variants of the code", "why_tests_cant": "Interference (through shared caches, say) shows in particular interleavings only, and is the absence of a difference between two whole programs.", "anchors": ["src/pigro/lazy.h: detail::lazy lines 46-67", "src/pigro/lazy.h: lazy lines 92-103", "src/pigro/bind_tuple.h: bind_back_tuple lines 36-50"]}
{"id": "C83", "title": "A wrapped function may call the lazy function it belongs to", "statement": "If a wrapped function calls, while it runs, the lazy function it belongs to: once a call has returned a result, every later call ends; it returns that result again without running the function if no dependency has a different value, and otherwise runs the function exactly once, with every nested call answered by the previous result. While there is no previous result, a function that begins with a nested call never ends.", "quantifier": "all functions with any number of nested calls at any point, depending on anything, that may throw and catch; all dependencies in all programs; all numbers and outcomes of earlier calls; all changes of the world", "why_tests_cant": "Reentrancy makes a call observe the object half way through another call; non-termination cannot be observed by a test at all, and the depth of nesting is unbounded.", "anchors": ["src/pigro/lazy.h: detail::lazy lines 46-67", "src/pigro/lazy.h: unwrap_value lines 35-44", "src/pigro/regular_void.h: unregularized_void lines 28-39"]}
{"id": "C84", "title": "Results that are optionals", "statement": "With functions whose results are std::optionals, however nested, a call returns what evaluating the whole tree eagerly does now, and a function is calculated again exactly when a dependency has changed, first results counting as changed.", "quantifier": "all depths of nesting of optionals, all functions, trees, programs, results and comparisons of the innermost type", "why_tests_cant": "Which overload of operator!= compares a std::optional<std::optional<T>> with a std::optional<T> depends on the result type; it treats empty optionals differently from all other values, and for two levels it takes different values for the same one. The existing tests only return ints and strings.", "anchors": ["src/pigro/lazy.h: detail::lazy lines 46-67, cache != result line 58"]}
{"id": "C85", "title": "Calls from several threads", "statement": "Threads may call lazy functions at the same time, the same or different ones, without a data race, and every call returns what it would return alone.", "quantifier": "any number of threads, any order of their steps, any objects, caches and functions", "why_tests_cant": "Races need an unlucky schedule, and tests run on one thread. Whether a call writes to the object depends on how it is handed through four lambdas and on whether anything is calculated.", "anchors": ["src/pigro/lazy.h: detail::lazy lines 46-67, ensure_lazy lines 78-90", "src/pigro/regular_void.h: unregularized_void lines 28-39"]}
{"id": "C86", "title": "Sizes with the compiler the project is made for", "statement": "With the Microsoft compiler, for which the project is configured and overload.h is written, tuples, bound callables, overload, recursive, callables with uncaptured values and lazy functions take no space for what is empty, and objects of empty type can be made anew by empty_object.", "quantifier": "any number of elements, callables and values of any types; any tree of dependencies; any layout of the user's types", "why_tests_cant": "Sizes depend on how base classes of size zero follow one another, for which there is one combination per list of types; the tests look at six tuples, four bound callables, and no uncaptured values.", "anchors": ["src/pigro/overload.h: lines 3-33", "src/pigro/compressed_tuple.h: lines 18-52", "src/pigro/bind_tuple.h: lines 20-50", "src/pigro/uncapture.h: Uncaptured, CompressedInvocable lines 11-41, operator>> lines 54-71", "src/pigro/empty_object.h: get lines 23-32", "src/pigro/lazy.h: lines 35-103", "CMakeSettings.json"]}
{"id": "C87", "title": "The two variants of overload make the same objects", "statement": "With the constructors overload has for the Microsoft compiler, which sort the callables and go through a std::tuple, overload, compressed_tuple and bind_tuple make what they make as an aggregate: they are well-formed for the same types, what is made holds the same values and references and refers to no temporary, and the objects of the caller are read, moved from and left as with other compilers. The price is exactly two copies of every callable given to overload: eight per non-empty value, four of the tuple and four of a callable passed as an rvalue when a callable is bound to a tuple.", "quantifier": "any number of callables and values of any types, any contents of memory", "why_tests_cant": "The tests run on one compiler at a time and look at results of calls; the additional copies and what happens to the objects copied from cannot be seen there, nor a reference to a dead temporary that happens to work.", "anchors": ["src/pigro/overload.h: lines 3-52", "src/pigro/compressed_tuple.h: lines 9-52", "src/pigro/bind_tuple.h: lines 20-50"]}
{"id": "C88", "title": "Objects of the library are values like what they are made of", "statement": "Tuples, bound callables, callables with uncaptured values and lazy functions can be copied, moved, assigned and default constructed exactly if the values, functions and results they consist of can (apart from those of empty type, which are not stored), and copying a tuple copies its elements.", "quantifier": "all types of values, functions and results, given by which special member functions they have; any number of elements; any tree of dependencies; both variants of overload.h; all forms of initialisation", "why_tests_cant": "Whether an operation compiles is a fact about types, of which there are infinitely many; a test that something does not compile is not among the tests, and assignment is nowhere tried.", "anchors": ["src/pigro/compressed_tuple.h: lines 18-64", "src/pigro/bind_tuple.h: lines 20-50", "src/pigro/overload.h", "src/pigro/recursive.h: lines 11-34", "src/pigro/uncapture.h: lines 11-71", "src/pigro/regular_void.h: lines 15-38", "src/pigro/lazy.h: lines 35-103"]}
{"id": "C89", "title": "What a call of a lazy function copies", "statement": "A call of a lazy function makes, by copying and moving, every function of its tree of dependencies four times for each lazy function the function is in and once more (plain functions twice), and correspondingly its constants and arguments; never more, and exactly that if it returns. So the number is at least five for each function, at most 4n+2 where n is the depth of the tree, and for a chain of lazy functions quadratic in its length.", "quantifier": "all client programs, of the pinned code and of the code without the deduction guide; all trees of dependencies, of any depth and width, for functions; for values, trees in which no lazy function has exactly one dependency; all choices of which types are empty; anything left in moved-from objects that still holds as many functions and values", "why_tests_cant": "No test counts copies. The number depends on the depth of the tree in a way no single test shows, and there is no bound on the depth.", "anchors": ["src/pigro/lazy.h: lines 31-103", "src/pigro/bind_tuple.h: lines 20-50", "src/pigro/regular_void.h: lines 15-38", "src/pigro/recursive.h: lines 11-34"]}
{"id": "C90", "title": "What uncaptured(v...) >> f copies", "statement": "uncaptured(v...) >> f makes the callable with the values and f as they were before, out of new objects and without using an object it has moved from. With n >= 2 values it copies the i-th value (from 0) 5 + 2i times and f 2n + 2 times, beside initialising its parameters (one value: three times and twice; none: f once; a value of empty type: once); so the number of copies is quadratic, and no linear bound holds. A call copies and moves nothing: it runs f once, with references to the stored values behind the arguments.", "quantifier": "all numbers of values, all types and values, empty and not, all value categories of the operands, all callables f including ones made by uncaptured, all code of f; no operand is an rvalue denoting an object used by another operand", "why_tests_cant": "The tests use up to three values and do not count copies; which of several moves of one tuple element reads a moved-from object is not visible with int.", "anchors": ["src/pigro/uncapture.h: lines 11-83"]}
{"id": "C91", "title": "Copies of results", "statement": "Without the deduction guide lazy.h:23-24, a call that returns without invoking any function copies every constant and every cached result of the object twice (the result returned once) and moves each once; the first call copies each result five times (constants four times, the result returned twice); any call, whatever its outcome, copies at most six times each. Every call that returns copies the result of every constant and every function of the object at least once, so lazy(f, v...) called again copies all n values twice. With the guide, a call that invokes nothing copies exactly what it returns.", "quantifier": "all objects, states of caches and of the world, all functions, results of any size, void results, lone tuples; each glue without (respectively with) references to results", "why_tests_cant": "The tests use results of type int and bool, for which copies cannot be counted, and trees of at most three levels.", "anchors": ["src/pigro/lazy.h: lines 17-76, 82-86", "src/pigro/tuple_algorithms.h: lines 8-21", "src/pigro/regular_void.h: lines 15-27", "src/pigro/bind_tuple.h: lines 13-18, 37-50"]}
{"id": "C92", "title": "What making a lazy function copies", "statement": "lazy(f, deps...) given temporaries and variables copies f 7 times, every value and every function among the dependencies 8 times, the constant 0 made for each such function 7 times, and every lazy function among them 7 times with all it contains: all that the new lazy function contains at least 7 and at most 8 times. Operands of other value categories are copied once more (const or lvalue) or once less (moved lazy functions) by the parameters of lazy. So making a chain of n lazy functions, each the dependency of the next, copies a number of functions quadratic in n, and no linear bound holds; if each is the dependency of the next twice, the number is exponential.", "quantifier": "all client programs, all functions, values and lazy functions, empty types and not, all numbers of dependencies, all weights of functions and values, pinned code and without the deduction guide", "why_tests_cant": "No test counts copies; every intermediate object has the same value, so nothing but a count, or time, shows them.", "anchors": ["src/pigro/lazy.h: lines 35-103", "src/pigro/regular_void.h: lines 15-39", "src/pigro/compressed_tuple.h: lines 14-118", "src/pigro/bind_tuple.h: lines 20-58"]}
{"id": "C93", "title": "How many functions a call runs", "statement": "A call of a lazy function runs each plain function it reaches at most once for every path from the lazy function to it, and exactly that often if it returns; it runs at most as many functions altogether as there are paths to functions, and compares at most as often as it runs a function. If nothing has changed since the last call, it runs nothing but the plain functions, and compares nothing but their results, each once for every path. The number of paths may be exponential in the number of lazy functions, so no linear bound holds, even if nothing has changed.", "quantifier": "all client programs, all reachable states, arbitrary functions (first part); all programs whose functions are pure (second part); all numbers of lazy functions; all glue (first part), glue that keeps everything (second part)", "why_tests_cant": "The tests have at most three lazy functions and count invocations of single functions; that dependencies are copied, and so evaluated once per copy, shows in the time only.", "anchors": ["src/pigro/lazy.h: lines 50-66", "src/pigro/lazy.h: lines 77-103"]}
{"id": "C94", "title": "What lazy functions ask of types", "statement": "lazy(f, deps...) compiles, as far as it depends on which special member functions and comparisons types have, exactly if every function and value in it, at any depth, can be copied and (unless it is empty) has no deleted move constructor, and every result, its own and those of functions and lazy functions among the dependencies, is void or can be copied, assigned from a const object and compared with !=; results of plain functions not void. Values need no assignment and no comparison. What compiles can be a dependency in turn.", "quantifier": "all types, all trees of dependencies of any depth and width, both variants of overload.h (standard, MSVC)", "why_tests_cant": "That something does not compile cannot be tested within a test that compiles; the tests use ints, doubles, strings and void as results only.", "anchors": ["src/pigro/lazy.h: lines 27-103", "src/pigro/regular_void.h: lines 15-38", "src/pigro/bind_tuple.h: lines 20-58"]}
{"id": "C95", "title": "A lazy function is its function with a memory", "statement": "Whatever its functions do (have state, read and change the world, throw), a lazy function behaves as its function together with a memory of its last result and of the last value of each dependency: a call asks the dependencies in order, remembering their values, until one throws; runs the function if there is no result yet or a value compares different from the one remembered before; and returns the last result. Answers, invocations with arguments, their order, and the world are the same in all programs, exactly if nothing is handed over by copy.", "quantifier": "all programs of constructions, copies, calls, polls and changes of the world; arbitrary functions, pure or not, throwing or not; all 256 combinations of hand-overs by copy or reference", "why_tests_cant": "The tests use pure functions that do not throw; what is remembered after a failed call, and what a function sees that reads more than its arguments, depends on whole histories.", "anchors": ["src/pigro/lazy.h: detail::lazy lines 46-67", "src/pigro/lazy.h: lines 69-103"]}
{"id": "C96", "title": "Handed over by copy, a lazy function is an expression evaluated anew", "statement": "If what calls leave behind is lost in copies (the facade, the unwrapper, or the closure and all it calls are passed by value) and results are values, then in all programs every call and poll of a lazy function evaluates everything it is made of once, from left to right, each function having the state it had when the lazy function was made: nothing is remembered. This is so exactly for such glue. The pinned code without its deduction guide for LazyResult is of this kind.", "quantifier": "all programs of constructions, copies, calls, polls and changes of the world; arbitrary functions and values; all 256 combinations of hand-overs; also at memory level", "why_tests_cant": "A test sees some programs and one compiled library; which of the by-value parameters each alone destroys the caching is a statement about all of them.", "anchors": ["src/pigro/lazy.h: lines 35-67", "src/pigro/regular_void.h: lines 28-39", "src/pigro/bind_tuple.h: lines 41-47"]}
{"id": "C97", "title": "What cannot be told apart can be replaced", "statement": "If two programs get the same from each of their variables by calling it, calling it with nullptr and changing the world in between (answers, worlds and whatever events one cares for), then no continuation tells the two programs apart: not by making lazy functions of any depth of the variables, copying them, or calling them in turns.", "quantifier": "all pairs of programs, all continuations, all functions, values and comparisons, every selection of events, all 256 combinations of hand-overs by copy or reference", "why_tests_cant": "The hypothesis and the conclusion are both about all sequences of operations; a test sees one.", "anchors": ["src/pigro/lazy.h: lines 46-67", "src/pigro/lazy.h: lines 78-103"]}
{"id": "C98", "title": "One function or two", "statement": "lazy(f, lazy(u, deps...)) and lazy(f after u, deps...) cannot be told apart in any program, neither by results, flags and exceptions nor by the world and the calls of other functions, if f computes its result from its argument alone; u and the dependencies are arbitrary.", "quantifier": "all programs before and after, all dependencies, all functions u (effects, own state, exceptions), all f that compute, all comparisons f respects; all hand-overs by copy or reference but those with dangling results, or with the last result kept and the dependencies not", "why_tests_cant": "Equality of two ways to write a program in all contexts is not observable by running some of them.", "anchors": ["src/pigro/lazy.h: lines 46-67", "src/pigro/lazy.h: lines 96-103", "docs/walkthrough/dependencies.md"]}
{"id": "C99", "title": "A constant may as well be written into the function", "statement": "lazy(f, ..., v, ...) and lazy(h, ...), where h is f with the constant v filled in at that place (or all constants, however many), cannot be told apart in any program: not by results, flags and exceptions, nor by the world, the calls of other functions or the comparisons of results.", "quantifier": "all programs before and after, all functions (effects, own state, exceptions), all numbers of dependencies and all places among them, all constants and comparisons; all combinations of hand-overs by copy or reference under which a constant does not dangle, and these exactly", "why_tests_cant": "Equality of two ways to write a program in all contexts is not observable by running some of them.", "anchors": ["src/pigro/lazy.h: lines 46-67", "src/pigro/lazy.h: lines 69-76", "src/pigro/lazy.h: lines 78-103"]}
{"id": "C100", "title": "Results of another type than the cache", "statement": "Where f(tuple) and f(elements...) have results of two types (lazy.h:47 names the former, lazy.h:56 computes the latter), so that results are converted when they are cached, programs do what they do with a function that converts its results itself, if comparing before the conversion is comparing after it; otherwise no change is missed, but changes that are none may be reported.", "quantifier": "all programs, functions, conversions and comparisons, all 256 combinations of hand-overs by copy or reference, the pinned code included", "why_tests_cant": "The two types are named in different lines and only ever differ for a single dependency with a tuple as its value; conversions and comparisons are the user's.", "anchors": ["src/pigro/lazy.h: lines 46-66", "src/pigro/tuple_algorithms.h: lines 8-14", "src/pigro/regular_void.h: lines 15-25"]}
{"id": "C101", "title": "What a program returns depends on what its variables mean only", "statement": "Two programs that declare variables of the same meaning at the same places, and otherwise do the same, return the same, however different their functions, dependencies, own state and worlds are, and even if one keeps caches and the other does not; if both do, they report the same changes, too. In particular dependencies may be declared in another order, several times, or, if of no use, not at all.", "quantifier": "all pairs of programs of functions that depend on their arguments and on what is observed only, all worlds, all glue that keeps all of its state or no caches, and does not dangle", "why_tests_cant": "A test compares two given programs; that no refactoring of any program can be seen requires all pairs of programs.", "anchors": ["src/pigro/lazy.h: lines 40-103", "src/pigro/tuple_algorithms.h: lines 8-23"]}
{"id": "C102", "title": "Values are stored apart, aligned and inside the object, with the Microsoft compiler", "statement": "In compressed_tuple{ vs... }, t >> f, t << f and overload{ fs... } everything that is not of an empty type lies exactly where it would lie in a struct of the same members in the same order, in spite of the empty types coming first as base classes; in uncaptured(vs...) >> f it may lie further back. In all of them no two values share a byte, each is aligned wherever the object is, and none reaches beyond the object; empty callables of overload all lie at offset 0. The same holds for values nested in stored objects.", "quantifier": "all lists of types of any sizes and power-of-two alignments, empty or not, all positions, all addresses of the object", "why_tests_cant": "A test prints offsets of a few types; overlap could occur for any combination of sizes, alignments and empty types.", "anchors": ["src/pigro/overload.h: lines 15-33", "src/pigro/compressed_tuple.h: lines 18-52", "src/pigro/bind_tuple.h: lines 20-50", "src/pigro/uncapture.h: lines 12-71"]}
{"id": "C103", "title": "Values are stored apart, aligned and inside the object, with the Itanium C++ ABI", "statement": "In compressed_tuple{ vs... }, t >> f, t << f and uncaptured(vs...) >> f everything that is not of an empty type is stored inside the object, aligned wherever the object is, and shares no byte with another value or the callable, even if empty subobjects of the same type clash and are moved, and although tail padding of base classes is reused; values of empty types are not stored. The same holds for values nested in stored objects.", "quantifier": "all lists of types of any sizes, power-of-two alignments and any empty subobjects, all positions, all addresses of the object", "why_tests_cant": "A test prints offsets of a few types; overlap could occur for any combination of sizes, alignments and clashing empty subobjects.", "anchors": ["src/pigro/overload.h: lines 35-38", "src/pigro/compressed_tuple.h: lines 18-52", "src/pigro/bind_tuple.h: lines 20-50", "src/pigro/uncapture.h: lines 12-71"]}
{"id": "C104", "title": "All state of a lazy function has bytes of its own", "statement": "In the object pigro::lazy returns, the caches of all lazy functions in it at whatever depth, all functions and all constants that are not of empty types are stored one after another, without overlap, inside the object, and aligned wherever the object is; nothing else is stored, and a dependency that occurs twice is stored twice, with two caches. So the object is at least as large as all of them together.", "quantifier": "all trees of lazy functions of any depth and width, all types of any sizes and power-of-two alignments, all addresses of the object", "why_tests_cant": "A test looks at a few objects; whether bytes are shared depends on the types at every depth.", "anchors": ["src/pigro/lazy.h: lines 35-103", "src/pigro/compressed_tuple.h: lines 18-52", "src/pigro/bind_tuple.h: lines 20-50", "src/pigro/overload.h: lines 15-33"]}
{"id": "C105", "title": "Bound callables can be bound again", "statement": "Layers of compressed_tuple{v...} >> and compressed_tuple{v...} << around a function call it with the values bound by >> (inner layers first), the arguments and the values bound by << (inner layers last), in every call of a series of calls, with all changes to own state and bound values made by earlier calls in place; two layers of >> are one with all the values, and a >> and a << can be exchanged.", "quantifier": "all numbers, kinds and orders of layers, all functions with own state that may assign to their arguments, all series of calls", "why_tests_cant": "Tests of bind_tuple bind once; a second layer meets copies made by the first, and differences show after several calls only.", "anchors": ["src/pigro/bind_tuple.h: lines 8-58", "src/pigro/compressed_tuple.h: lines 18-52"]}
{"id": "C106", "title": "Sizes do not depend on the compiler", "statement": "If the user's types (and std::optional of them) have the same sizes and alignments with two compilers, one with the Itanium C++ ABI, the other one Microsoft's, then so have compressed_tuples, bound callables, overloads and lazy functions of them, and the same caches, functions and constants are stored in lazy functions at the same offsets.", "quantifier": "all lists of types, all trees of lazy functions of any depth, all layouts of the user's types, with and without the reordering of base classes in overload.h", "why_tests_cant": "Tests run with one compiler at a time and pin a few sizes; the rules by which the two ABIs place empty base classes differ.", "anchors": ["src/pigro/overload.h: lines 1-41", "src/pigro/compressed_tuple.h: lines 8-60", "src/pigro/bind_tuple.h: lines 20-58", "src/pigro/lazy.h: lines 46-103"]}
{"id": "C107", "title": "Lazy functions are laid out like nested structs", "statement": "What pigro::lazy(f, deps...) returns is laid out like struct { std::optional<result> cache; struct { F f; Deps... deps; } args; }, with members of empty types left out, where a lazy dependency is again such a struct, a constant is itself, and a plain function is a cache together with the function and an int: same size, same alignment, and each cache, function and constant at the offset at which it is in that struct.", "quantifier": "all trees of lazy functions of any depth and width, all sizes and alignments (powers of two) of the user's types, both the Itanium and the Microsoft C++ ABI", "why_tests_cant": "Tests pin the sizes of a few lazy functions with one compiler; they never look at offsets, and the closures, overload sets and base classes in between (a dozen for every level) could add or reorder anything for other types.", "anchors": ["src/pigro/lazy.h: lines 35-103", "src/pigro/compressed_tuple.h: lines 8-60", "src/pigro/bind_tuple.h: lines 20-58", "src/pigro/overload.h: lines 1-41", "src/pigro/regular_void.h: lines 15-39"]}
