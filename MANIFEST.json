{
 "claims": [
  {
   "property": "C01",
   "status": "proved",
   "theorems": [
    "Pigro.C01_construction_evaluates_nothing",
    "Pigro.C01_construction_in_any_history"
   ],
   "note": "Every glue, every program."
  },
  {
   "property": "C02",
   "status": "partial",
   "theorems": [
    "Pigro.C02_call_once_partial",
    "Pigro.C02_dropped_reinvokes",
    "Pigro.C02_pinned_reinvokes",
    "Pigro.C02_exact"
   ],
   "note": "False of the pinned code: n calls give n invocations (C02_pinned_reinvokes). Proved for every glue that keeps the cache."
  },
  {
   "property": "C03",
   "status": "partial",
   "theorems": [
    "Pigro.C03_value_deps_once_partial",
    "Pigro.C17_lone_tuple_unpacked"
   ],
   "note": "False of the pinned code: as C02; and a single tuple value is unpacked. Proved for every glue that keeps the cache."
  },
  {
   "property": "C04",
   "status": "partial",
   "theorems": [
    "Pigro.C04_fresh_partial",
    "Pigro.C04_pinned_never_returns",
    "Pigro.C04_half_fixed_stale",
    "Pigro.C04_lone_tuple",
    "Pigro.C04_exact",
    "Pigro.C50_fresh_unless_thrown_partial"
   ],
   "note": "False of the pinned code: no call returns a value. Proved over all histories for glue that keeps everything or drops all caches and does not dangle; refuted for half-fixed glue (C04_exact: precisely those two kinds of glue, when results are values)."
  },
  {
   "property": "C05",
   "status": "partial",
   "theorems": [
    "Pigro.C05_no_reevaluation_partial",
    "Pigro.C05_exact_recalculation_partial",
    "Pigro.C05_dropped_reinvokes_all",
    "Pigro.C05_exact"
   ],
   "note": "False of the pinned code: everything is invoked at each call."
  },
  {
   "property": "C06",
   "status": "proved",
   "theorems": [
    "Pigro.C06_runs_iff_changed"
   ],
   "note": "Every glue, every reachable state, arbitrary functions; results of dependencies readable."
  },
  {
   "property": "C07",
   "status": "proved",
   "theorems": [
    "Pigro.C07_deps_once_in_order"
   ],
   "note": "Every glue, every reachable state, arbitrary functions."
  },
  {
   "property": "C08",
   "status": "proved",
   "theorems": [
    "Pigro.C08_plain_functions_never_cached",
    "Pigro.C08_shape_reachable",
    "Pigro.C07_deps_once_in_order"
   ],
   "note": "The dummy argument of the adaptor must be readable; where it is not (pinned code) the evaluation is undefined, see C16."
  },
  {
   "property": "C09",
   "status": "partial",
   "theorems": [
    "Pigro.C09_early_cutoff_partial",
    "Pigro.C05_dropped_reinvokes_all"
   ],
   "note": "False of the pinned code: everything is invoked at each call."
  },
  {
   "property": "C10",
   "status": "proved",
   "theorems": [
    "Pigro.C10_comparisons",
    "Pigro.C10_comparisons_exact_partial",
    "Pigro.C06_runs_iff_changed",
    "Pigro.C05_dropped_reinvokes_all"
   ],
   "note": "C10_comparisons: every glue, every reachable state, arbitrary functions, every node of the tree. The others give the exact comparisons of a whole call for particular glue."
  },
  {
   "property": "C100",
   "status": "proved",
   "theorems": [
    "Pigro.Cvt.C100_converted",
    "Pigro.Cvt.C100_same",
    "Pigro.Cvt.C100_not_missed",
    "Pigro.Cvt.C100_overreported"
   ],
   "note": "For every glue. C100_overreported: without agreement of the comparisons, what depends on the result is computed anew each time."
  },
  {
   "property": "C101",
   "status": "partial",
   "theorems": [
    "Pigro.Mng.C101_results_partial",
    "Pigro.Mng.C101_flags_partial",
    "Pigro.Mng.C101_rearranged_partial",
    "Pigro.Mng.C101_throwing_partial",
    "Pigro.Mng.C101_half_repaired",
    "Pigro.Mng.C101_order_after_throw",
    "Pigro.LM.C101_in_memory_partial"
   ],
   "note": "False for glue that keeps some of its state (C101_half_repaired), of variables that have thrown (C101_order_after_throw) and for the pinned code, where no call returns (C04_pinned_never_returns)."
  },
  {
   "property": "C102",
   "status": "proved",
   "theorems": [
    "Pigro.Ms.C102_tuple",
    "Pigro.Ms.C102_bound",
    "Pigro.Ms.C102_overload",
    "Pigro.Ms.C102_overload_empty",
    "Pigro.Ms.C102_uncapture",
    "Pigro.Ms.C102_nested",
    "Pigro.Ms.C102_bound_tuple"
   ],
   "note": "Layout rules of the Microsoft C++ ABI as in Model/MsLayout.lean."
  },
  {
   "property": "C103",
   "status": "proved",
   "theorems": [
    "Pigro.Lay.C103_tuple",
    "Pigro.Lay.C103_bound",
    "Pigro.Lay.C103_uncapture",
    "Pigro.Lay.C103_nested"
   ],
   "note": "Layout rules of the Itanium C++ ABI as in Model/Layout.lean."
  },
  {
   "property": "C104",
   "status": "proved",
   "theorems": [
    "Pigro.Ms.C104_state",
    "Pigro.Ms.C104_no_smaller",
    "Pigro.Lay.C104_state",
    "Pigro.Lay.C104_no_smaller"
   ],
   "note": "With the layout rules of the Microsoft C++ ABI (Ms) and of the Itanium C++ ABI (Lay)."
  },
  {
   "property": "C105",
   "status": "partial",
   "theorems": [
    "Pigro.Cxx.C105_layers_partial",
    "Pigro.Cxx.C105_front",
    "Pigro.Cxx.C105_first_call",
    "Pigro.Cxx.C105_unchanging",
    "Pigro.Cxx.C105_merge",
    "Pigro.Cxx.C105_exchange",
    "Pigro.Cxx.C105_two_backs",
    "Pigro.Cxx.C105_layer_front",
    "Pigro.Cxx.C105_layer_back",
    "Pigro.Cxx.C105_arguments_front",
    "Pigro.Cxx.C105_arguments_back",
    "Pigro.Cxx.C105_arguments_kept",
    "Pigro.Cxx.C105_arguments_changed"
   ],
   "note": "The order of arguments, the first call, layers of >> only, and functions that change nothing: as claimed. Changes to own state and bound values are lost by <<, which copies the callable and the arguments (std::bind_front): C105_two_backs; C105_layers_partial says exactly which are kept. Each layer is connected to the memory-level model of bind_tuple.h (C105_layer_front, C105_layer_back), also in what happens to lvalue arguments (C105_arguments_front, C105_arguments_back); through all layers: C105_arguments_kept, C105_arguments_changed."
  },
  {
   "property": "C106",
   "status": "partial",
   "theorems": [
    "Pigro.Lay.C106_lazy",
    "Pigro.Lay.C106_pieces",
    "Pigro.Lay.C106_offsets",
    "Pigro.Lay.C106_tuple_partial",
    "Pigro.Lay.C106_bound_partial",
    "Pigro.Lay.C106_tuple_offsets_partial",
    "Pigro.Lay.C106_bound_offsets_partial",
    "Pigro.Lay.C106_overload_partial",
    "Pigro.Lay.C106_overload_offsets_partial",
    "Pigro.Lay.C106_clash"
   ],
   "note": "Lazy functions: true of all trees (C106_lazy, C106_pieces), also of the offset of each cache, function and constant (C106_offsets). Tuples, bound callables and overloads: true, also of the offsets of what is stored, unless empty subobjects of the same type meet at the same address, which only the Itanium C++ ABI forbids; false then, compressed_tuple{ f, 5 } >> f takes 8 bytes with the one and 4 with the other (C106_clash)."
  },
  {
   "property": "C107",
   "status": "proved",
   "theorems": [
    "Pigro.Lay.C107_ms",
    "Pigro.Lay.C107_itanium",
    "Pigro.Lay.C107_cache_first",
    "Pigro.Lay.C107_inside"
   ],
   "note": "For types of the user containing nothing of this library (Plain) and alignments that are powers of two. The Itanium model is without the reordering of bases in overload.h, which is done for Microsoft's compiler only."
  },
  {
   "property": "C11",
   "status": "partial",
   "theorems": [
    "Pigro.C11_is_changed_partial",
    "Pigro.C11_dropped_always_changed",
    "Pigro.C11_exact"
   ],
   "note": "False of the pinned code: is_changed is always true."
  },
  {
   "property": "C12",
   "status": "partial",
   "theorems": [
    "Pigro.C12_void_returns_nothing",
    "Pigro.C12_void_changed_once_partial",
    "Pigro.C11_dropped_always_changed"
   ],
   "note": "False of the pinned code: is_changed is always true. Result and propagation proved for every glue."
  },
  {
   "property": "C13",
   "status": "proved",
   "theorems": [
    "Pigro.C13_copies_independent",
    "Pigro.C13_dependency_copies_independent"
   ],
   "note": "Every glue, arbitrary functions."
  },
  {
   "property": "C14",
   "status": "partial",
   "theorems": [
    "Pigro.C14_exception_reaches_caller",
    "Pigro.C14_throw_keeps_cache",
    "Pigro.C14_first_throw_reevaluates_partial",
    "Pigro.C14_stale_after_throw",
    "Pigro.C50_fresh_unless_thrown_partial"
   ],
   "note": "False for glue that keeps everything: a stale value is returned after a throw (C14_stale_after_throw). Propagation and cache preservation proved for every glue."
  },
  {
   "property": "C15",
   "status": "proved",
   "theorems": [
    "Pigro.C15_dependency_throws"
   ],
   "note": "Every glue, arbitrary functions."
  },
  {
   "property": "C16",
   "status": "partial",
   "theorems": [
    "Pigro.C16_no_dangling_partial",
    "Pigro.C16_copies_dangle",
    "Pigro.C16_pinned_dangles",
    "Pigro.C16_exact",
    "Pigro.C16_exact_nonvoid"
   ],
   "note": "False of the pinned code: every call that does not throw reads a dead object."
  },
  {
   "property": "C17",
   "status": "partial",
   "theorems": [
    "Pigro.C17_arguments_as_is_partial",
    "Pigro.C17_lone_tuple_unpacked"
   ],
   "note": "False for a single tuple-valued dependency, for every tuple and function."
  },
  {
   "property": "C18",
   "status": "partial",
   "theorems": [
    "Pigro.C18_own_state_persists_partial",
    "Pigro.C18_pinned_forgets",
    "Pigro.C18_exact"
   ],
   "note": "False of the pinned code: each invocation starts from the initial state."
  },
  {
   "property": "C19",
   "status": "partial",
   "theorems": [
    "Pigro.C19_state_survives_partial",
    "Pigro.C19_dropped_never_holds",
    "Pigro.C19_exact"
   ],
   "note": "False of the pinned code: no variable ever holds a value."
  },
  {
   "property": "C20",
   "status": "proved",
   "theorems": [
    "Pigro.C20_classification",
    "Pigro.C20_unambiguous",
    "Pigro.C20_effect",
    "Pigro.C20_only_facades",
    "Pigro.C20_void_dependency_rejected",
    "Pigro.C08_plain_functions_never_cached"
   ],
   "note": ""
  },
  {
   "property": "C21",
   "status": "proved",
   "theorems": [
    "Pigro.C21_each_function_at_most_once"
   ],
   "note": "Every glue, arbitrary functions."
  },
  {
   "property": "C22",
   "status": "partial",
   "theorems": [
    "Pigro.Cxx.C22_bind_front_partial",
    "Pigro.Cxx.C22_any_state_partial",
    "Pigro.Cxx.C22_alive",
    "Pigro.Cxx.C22_idx_argument"
   ],
   "note": "False for a lone argument of type idx_t<0> or idx_t<1>, which selects an element instead (C22_idx_argument). Proved for all others, for code that does anything to memory."
  },
  {
   "property": "C23",
   "status": "partial",
   "theorems": [
    "Pigro.Cxx.C23_bind_back_partial",
    "Pigro.Cxx.C23_any_state_partial",
    "Pigro.Cxx.C22_alive",
    "Pigro.Cxx.C22_idx_argument"
   ],
   "note": "As C22."
  },
  {
   "property": "C24",
   "status": "proved",
   "theorems": [
    "Pigro.Cxx.C24_bind_back"
   ],
   "note": "For every memory at the time of the call, so for every sequence of calls and modifications in between."
  },
  {
   "property": "C25",
   "status": "partial",
   "theorems": [
    "Pigro.Cxx.C25_state_kept_front",
    "Pigro.Cxx.C25_direct_front",
    "Pigro.Cxx.C25_state_back_partial",
    "Pigro.Cxx.C25_own_state_lost"
   ],
   "note": "Proved for >>, any sequence of calls. False for <<: the callable is copied for each call (C25_own_state_lost); bound values do keep their state (C25_state_back_partial)."
  },
  {
   "property": "C26",
   "status": "partial",
   "theorems": [
    "Pigro.Cxx.C26_forwarding_front_partial",
    "Pigro.Cxx.C26_forwarding_back_partial"
   ],
   "note": "Lvalues through >> and rvalues through << are as claimed; the other two combinations are proved to differ by the same theorems."
  },
  {
   "property": "C27",
   "status": "partial",
   "theorems": [
    "Pigro.Cxx.C27_get_partial",
    "Pigro.Cxx.C27_get_constructed",
    "Pigro.Cxx.C27_lone_compressed_tuple",
    "Pigro.Cxx.C27_default_length"
   ],
   "note": "False for a lone compressed_tuple argument, for which no element type is deduced (C27_lone_compressed_tuple). C27_get_constructed is for explicit element types."
  },
  {
   "property": "C28",
   "status": "proved",
   "theorems": [
    "Pigro.Cxx.C28_write_access",
    "Pigro.Cxx.C29_aliasing"
   ],
   "note": "Any state of memory; sequences of writes by C29_aliasing."
  },
  {
   "property": "C29",
   "status": "proved",
   "theorems": [
    "Pigro.Cxx.C29_aliasing"
   ],
   "note": "Refinement of a machine with variables, for every sequence of reads and writes."
  },
  {
   "property": "C30",
   "status": "partial",
   "theorems": [
    "Pigro.Cxx.C30_get_type_partial",
    "Pigro.Cxx.C30_empty_differs"
   ],
   "note": "The exact condition under which it holds for non-empty elements is proved; false for empty elements and for references in const tuples."
  },
  {
   "property": "C31",
   "status": "proved",
   "theorems": [
    "Pigro.Cxx.C31_deep_const"
   ],
   "note": ""
  },
  {
   "property": "C32",
   "status": "partial",
   "theorems": [
    "Pigro.Lay.C32_tuple_empty",
    "Pigro.Lay.C32_bound_empty",
    "Pigro.Lay.C32_size_partial",
    "Pigro.Lay.C32_bound_size_partial",
    "Pigro.Lay.C32_size_plain",
    "Pigro.Lay.C32_addresses",
    "Pigro.Lay.C32_clash"
   ],
   "note": "Emptiness without conditions; sizes by the Itanium layout rules unless an element contains a closure of the same type at its start; false then (C32_clash). Full for elements containing no compressed_tuple (C32_size_plain)."
  },
  {
   "property": "C33",
   "status": "proved",
   "theorems": [
    "Pigro.Cxx.C33_traits",
    "Pigro.Cxx.C33_consistent"
   ],
   "note": "All cv-ref qualifications."
  },
  {
   "property": "C34",
   "status": "proved",
   "theorems": [
    "Pigro.Cxx.C34_like",
    "Pigro.Cxx.C34_forward_like"
   ],
   "note": ""
  },
  {
   "property": "C35",
   "status": "proved",
   "theorems": [
    "Pigro.Cxx.C35_as_nonconst"
   ],
   "note": ""
  },
  {
   "property": "C36",
   "status": "partial",
   "theorems": [
    "Pigro.Cxx.C36_selection",
    "Pigro.Cxx.C36_self_as_called_partial",
    "Pigro.Cxx.C36_const_fallback"
   ],
   "note": "C36_selection is the exact behaviour; a non-const object the callable does not accept falls back to const (C36_const_fallback)."
  },
  {
   "property": "C37",
   "status": "proved",
   "theorems": [
    "Pigro.Rec.C37_fixed_point",
    "Pigro.Rec.C37_deterministic",
    "Pigro.Rec.C37_terminates",
    "Pigro.Rec.C37_computes"
   ],
   "note": ""
  },
  {
   "property": "C38",
   "status": "proved",
   "theorems": [
    "Pigro.TL.C38_stable_partition",
    "Pigro.TL.C38_stable_partition_unique"
   ],
   "note": "All lists of types and predicates."
  },
  {
   "property": "C39",
   "status": "proved",
   "theorems": [
    "Pigro.TL.C39_filter_if",
    "Pigro.TL.C39_filter_if_unique",
    "Pigro.TL.C39_negation",
    "Pigro.TL.C39_concat"
   ],
   "note": "All lists of types and predicates."
  },
  {
   "property": "C40",
   "status": "proved",
   "theorems": [
    "Pigro.Ovl.C40_selects_best",
    "Pigro.Ovl.C40_order_independent",
    "Pigro.Ovl.C40_msvc_same",
    "Pigro.Ovl.C40_msvc_construct"
   ],
   "note": ""
  },
  {
   "property": "C41",
   "status": "partial",
   "theorems": [
    "Pigro.C41_transform_partial",
    "Pigro.C41_transform_pure_partial",
    "Pigro.C41_lone_tuple_unpacked"
   ],
   "note": "False when the results are one tuple: it is unpacked (C41_lone_tuple_unpacked)."
  },
  {
   "property": "C42",
   "status": "proved",
   "theorems": [
    "Pigro.C42_any_short_circuit",
    "Pigro.C42_any_iff"
   ],
   "note": "Stateful and throwing predicates included."
  },
  {
   "property": "C43",
   "status": "proved",
   "theorems": [
    "Pigro.Cxx.C43_apply",
    "Pigro.Cxx.C43_apply_get",
    "Pigro.Cxx.C43_apply_std"
   ],
   "note": "compressed_tuple and std::tuple."
  },
  {
   "property": "C44",
   "status": "partial",
   "theorems": [
    "Pigro.Cxx.C44_to_tuple_partial",
    "Pigro.Cxx.C44_to_tuple_std",
    "Pigro.Cxx.C44_empty_dangles"
   ],
   "note": "False for elements of empty type: the reference dangles (C44_empty_dangles)."
  },
  {
   "property": "C45",
   "status": "proved",
   "theorems": [
    "Pigro.Cxx.C45_enumerate_pack",
    "Pigro.Cxx.C45_enumerate_n"
   ],
   "note": ""
  },
  {
   "property": "C46",
   "status": "proved",
   "theorems": [
    "Pigro.Unc.C46_values_appended",
    "Pigro.Unc.C46_values_by_reference"
   ],
   "note": "Any nesting of layers, const and non-const calls."
  },
  {
   "property": "C47",
   "status": "partial",
   "theorems": [
    "Pigro.Unc.C47_storage_distinct_partial",
    "Pigro.Unc.C47_class_of",
    "Pigro.Unc.C47_wrapped_collides"
   ],
   "note": "False for a callable that itself derives from an uncaptured one (C47_wrapped_collides)."
  },
  {
   "property": "C48",
   "status": "proved",
   "theorems": [
    "Pigro.RV.C48_optional_regular_void"
   ],
   "note": "All programs over the operations the specialisation offers."
  },
  {
   "property": "C49",
   "status": "partial",
   "theorems": [
    "Pigro.Cxx.C49_regularized_partial",
    "Pigro.Cxx.C49_round_trip_partial",
    "Pigro.Cxx.C49_calls_partial",
    "Pigro.Cxx.C49_own_state_lost",
    "Pigro.Cxx.C49_argument_change_lost"
   ],
   "note": "f and the arguments are copied: exact behaviour proved for arbitrary code; false for functions with state of their own or changing their arguments."
  },
  {
   "property": "C50",
   "status": "partial",
   "theorems": [
    "Pigro.C50_stale_after_dependency_throw",
    "Pigro.C50_fresh_unless_thrown_partial",
    "Pigro.C50_exact"
   ],
   "note": "False for every glue that keeps everything: shown by a witness. Proved over all histories for glue that drops everything, and for variables that have not thrown. C50_exact: with functions that throw, only glue that caches nothing is always right."
  },
  {
   "property": "C51",
   "status": "proved",
   "theorems": [
    "Pigro.C51_effects_are_the_invocations"
   ],
   "note": "Every glue, every history, arbitrary functions."
  },
  {
   "property": "C52",
   "status": "proved",
   "theorems": [
    "Pigro.Cxx.C52_rvalue_reference_owned"
   ],
   "note": ""
  },
  {
   "property": "C53",
   "status": "proved",
   "theorems": [
    "Pigro.LM.C53_pinned",
    "Pigro.LM.C53_without_guide",
    "Pigro.LM.C53_call_dangles",
    "Pigro.LM.C53_call_eager"
   ],
   "note": "Simulation between the memory-level model (composed from the models of the other headers) and the abstract lazy model, for every client program."
  },
  {
   "property": "C54",
   "status": "proved",
   "theorems": [
    "Pigro.LM.C54_untouched",
    "Pigro.LM.C54_variables_exist",
    "Pigro.LM.C54_ended_argument",
    "Pigro.LM.C54_ended_called"
   ],
   "note": ""
  },
  {
   "property": "C55",
   "status": "partial",
   "theorems": [
    "Pigro.Lay.C55_size",
    "Pigro.Lay.C55_no_functions_partial",
    "Pigro.Lay.C55_function_costs_int"
   ],
   "note": "Exact size for every tree (C55_size). False for plain functions as dependencies, each of which comes with a dummy int (C55_function_costs_int); true for all trees without (C55_no_functions_partial). Itanium layout rules."
  },
  {
   "property": "C56",
   "status": "partial",
   "theorems": [
    "Pigro.C56_at_most_once_per_path_partial",
    "Pigro.C56_once_per_path_partial",
    "Pigro.C56_evaluated_twice",
    "Pigro.C56_two_values"
   ],
   "note": "False: dependencies are copied, so the function runs once per path (C56_once_per_path_partial, exact; C56_evaluated_twice, the witness). With functions that have effects the copies may even have different values in one call (C56_two_values). Proved: at most once per path, any glue and state."
  },
  {
   "property": "C57",
   "status": "proved",
   "theorems": [
    "Pigro.Lay.C57_reads_the_base",
    "Pigro.Lay.C57_nonempty_misses",
    "Pigro.Lay.C57_offsets",
    "Pigro.Lay.C57_offsets_placed"
   ],
   "note": "Addresses by the Itanium layout rules. That no T2 lives in the union (formally undefined in C++) is not modelled."
  },
  {
   "property": "C58",
   "status": "partial",
   "theorems": [
    "Pigro.Cxx.C58_front_exact",
    "Pigro.Cxx.C58_front_partial",
    "Pigro.Cxx.C58_back_partial",
    "Pigro.Cxx.C58_bind_back_partial",
    "Pigro.Cxx.C58_front_sound",
    "Pigro.Cxx.C58_back_sound",
    "Pigro.Cxx.C58_rvalue_arguments",
    "Pigro.Cxx.C58_const_object",
    "Pigro.Cxx.C58_bind_back_type"
   ],
   "note": "Exact for non-const objects; holds for >> with lvalue arguments and for << with any. False for rvalue arguments of >> (C58_rvalue_arguments), const bound callables (C58_const_object), rvalues in bind_back (C58_bind_back_type). Accepted calls always run the callable on what it accepts (C58_front_sound, C58_back_sound)."
  },
  {
   "property": "C59",
   "status": "proved",
   "theorems": [
    "Pigro.C59_results",
    "Pigro.C59_events"
   ],
   "note": "Type soundness, for every glue; user functions are assumed to respect their own signatures (FnCode.Respects)."
  },
  {
   "property": "C60",
   "status": "partial",
   "theorems": [
    "Pigro.C60_exact",
    "Pigro.C60_compiles_partial",
    "Pigro.C60_tuple_rejected"
   ],
   "note": "Exact condition in C60_exact. False for a lone dependency whose value is a tuple: f must then also accept its elements (C60_tuple_rejected)."
  },
  {
   "property": "C61",
   "status": "proved",
   "theorems": [
    "Pigro.LM.C61_same",
    "Pigro.LM.C61_call_eager",
    "Pigro.LM.C61_call_dangles",
    "Pigro.Cxx.C61_const_compiles"
   ],
   "note": "Compiling: for copyable arguments (C61_const_compiles holds for every binding with >> of a lambda without captures and with by-value parameters)."
  },
  {
   "property": "C62",
   "status": "proved",
   "theorems": [
    "Pigro.Cxx.C62_bind_back",
    "Pigro.Cxx.C62_no_copies"
   ],
   "note": "Exact record of copies and moves."
  },
  {
   "property": "C63",
   "status": "partial",
   "theorems": [
    "Pigro.Cxx.C63_front_partial",
    "Pigro.Cxx.C63_front_no_copies_partial",
    "Pigro.Cxx.C63_back_copies"
   ],
   "note": "Holds for >> (unless the lone argument is idx_t<0> or idx_t<1>). False for <<: every call copies the callable and the lvalue arguments (C63_back_copies, exact)."
  },
  {
   "property": "C64",
   "status": "partial",
   "theorems": [
    "Pigro.Cxx.C64_one_copy_partial",
    "Pigro.Cxx.C64_rvalues_copied",
    "Pigro.Cxx.C64_reference_types"
   ],
   "note": "Lvalues are copied exactly once and nothing but the values is copied, but rvalues are copied too (C64_rvalues_copied), because static_cast<Ts>(values) casts a named parameter. Exact for explicit reference types as well."
  },
  {
   "property": "C65",
   "status": "proved",
   "theorems": [
    "Pigro.Lay.C65_overload_empty",
    "Pigro.Lay.C65_recursive_empty",
    "Pigro.Lay.C65_uncaptured_empty",
    "Pigro.Lay.C65_overload_size",
    "Pigro.Lay.C65_recursive_size",
    "Pigro.Lay.C65_uncaptured_size",
    "Pigro.Lay.C65_clash"
   ],
   "note": "Itanium layout rules. C65_clash: the condition on shared empty bases is needed."
  },
  {
   "property": "C66",
   "status": "partial",
   "theorems": [
    "Pigro.Con.C66_tuple_like",
    "Pigro.Con.C66_decides_partial",
    "Pigro.Con.C66_hard_error",
    "Pigro.Con.C66_other_operators",
    "Pigro.Con.C66_own_operator"
   ],
   "note": "Satisfied by exactly the tuple-like types (C66_tuple_like). False in that asking about a type without std::tuple_size is a hard error, also for expressions with operators of their own (C66_hard_error)."
  },
  {
   "property": "C67",
   "status": "partial",
   "theorems": [
    "Pigro.Eff.C67_propagates",
    "Pigro.Eff.C67_caches",
    "Pigro.Eff.C67_own_cache_partial",
    "Pigro.Eff.C67_retry_partial",
    "Pigro.Eff.C67_stale",
    "Pigro.Eff.C67_refines"
   ],
   "note": "Model with effectful, throwing comparison and assignment, refining the base model (C67_refines). The last clause is false where caches are kept (C67_stale); proved for nodes without a value (C67_retry_partial)."
  },
  {
   "property": "C68",
   "status": "partial",
   "theorems": [
    "Pigro.C68_same_partial",
    "Pigro.C68_comparisons_partial",
    "Pigro.C68_more_comparisons",
    "Pigro.C68_first_design_fresh",
    "Pigro.C68_after_throw",
    "Pigro.C68_goes_on",
    "Pigro.C68_dependency_goes_on"
   ],
   "note": "For the design of lazy.h with objects called in place (Glue.retained). Same results up to the first exception, same invocations and effects if nothing throws. False after an exception (C68_after_throw): the first design is always right (C68_first_design_fresh), the current one is not. Comparisons exact for calls that recompute nothing; otherwise the current design can make more (C68_more_comparisons)."
  },
  {
   "property": "C69",
   "status": "partial",
   "theorems": [
    "Pigro.C69_frozen",
    "Pigro.C69_argument_frozen",
    "Pigro.C69_documented_frozen",
    "Pigro.C69_documented_stale",
    "Pigro.C69_direct_partial"
   ],
   "note": "False of the documented program wherever caches are kept: lazy(get_drawing_mode) has no dependencies, so it is frozen by its first call (C69_documented_frozen, all functions and schedules; C69_documented_stale, a run). True if get_drawing_mode is passed as a plain function (C69_direct_partial)."
  },
  {
   "property": "C70",
   "status": "partial",
   "theorems": [
    "Pigro.C70_fresh",
    "Pigro.C70_same_partial",
    "Pigro.C70_polls",
    "Pigro.C70_at_least",
    "Pigro.C70_at_most",
    "Pigro.C70_chain",
    "Pigro.C70_lone_tuple",
    "Pigro.C70_effects"
   ],
   "note": "For the design of lazy.h with objects called in place and functions without observed effects: same results, flags and invocations of wrapped functions (C70_same_partial). Plain functions: exact (C70_polls), at least once, at most depth+1 times (C70_at_most), reached by chains (C70_chain). False for a lone tuple (C70_lone_tuple) and for plain functions with effects (C70_effects)."
  },
  {
   "property": "C71",
   "status": "partial",
   "theorems": [
    "Pigro.C71_conservative",
    "Pigro.C71_fresh_partial",
    "Pigro.C71_flags_decide",
    "Pigro.C71_dishonest_stale",
    "Pigro.C71_pinned_dangles"
   ],
   "note": "For code that keeps the state of the called object and returns results by value: fresh in every history (C71_fresh_partial), and an exact account without assumptions on the functions (C71_flags_decide). False if the flag lies (C71_dishonest_stale), and of the pinned code, where every call dangles (C71_pinned_dangles). The extended model is proved to agree with the other on programs without such dependencies (C71_conservative)."
  },
  {
   "property": "C72",
   "status": "partial",
   "theorems": [
    "Pigro.C72_same_partial",
    "Pigro.C72_pictured_draws_always",
    "Pigro.C72_unchanged_world",
    "Pigro.C72_pinned",
    "Pigro.C72_pictured_frozen",
    "Pigro.C72_caught"
   ],
   "note": "True of repaired programs (flag taken back after rendering; get_drawing_mode passed as a plain function; caches kept): same invocations, world and exception for all functions and schedules (C72_same_partial). False as pictured: the handwritten program renders in every iteration (C72_pictured_draws_always) where the other renders once (C72_unchanged_world), the other keeps the first icon (C72_pictured_frozen); false of the pinned code (C72_pinned) and with a handler inside the loop (C72_caught)."
  },
  {
   "property": "C73",
   "status": "partial",
   "theorems": [
    "Pigro.C73_same_partial",
    "Pigro.C73_two_flags",
    "Pigro.C73_bug",
    "Pigro.C73_no_bug",
    "Pigro.C73_pinned"
   ],
   "note": "Wherever caches are kept and results returned by value: same behaviour for all programs (C73_same_partial), also for the two-flag program with its bug fixed (C73_two_flags); exact number of initializations with the bug (C73_bug) and with the library (C73_no_bug). False of the pinned code: the first call is undefined (C73_pinned)."
  },
  {
   "property": "C74",
   "status": "proved",
   "theorems": [
    "Pigro.C74_same",
    "Pigro.C74_pinned",
    "Pigro.C74_no_values",
    "Pigro.C74_mixed"
   ],
   "note": "For the pinned code (C74_pinned; there both programs run into the same undefined behaviour at the same place) and for code that keeps everything a call changes. C74_mixed: it would be false of code that keeps caches but not dependencies."
  },
  {
   "property": "C75",
   "status": "partial",
   "theorems": [
    "Pigro.C75_general",
    "Pigro.C75_same_partial",
    "Pigro.C75_once_partial",
    "Pigro.C75_value",
    "Pigro.C75_pinned",
    "Pigro.C75_changing_image"
   ],
   "note": "With caches kept. False of the pinned code: undefined behaviour in the first iteration with a visible cursor, before the image is loaded (C75_pinned). An image that changes differs between the programs (C75_changing_image). C75_value: the drawback of values, for all variants of the code."
  },
  {
   "property": "C76",
   "status": "partial",
   "theorems": [
    "Pigro.Lay.C76_smaller_partial",
    "Pigro.Lay.C76_caches_take_space",
    "Pigro.Lay.C76_strictly_partial",
    "Pigro.Lay.C76_functions",
    "Pigro.Lay.C76_padding"
   ],
   "note": "True if no plain function is a dependency and all types are aligned alike (or empty), whatever dependencies_cache looks like. False otherwise: with n >= 2 plain functions as dependencies the library takes 8 + 12 n bytes against about 5 n + 16 (C76_functions, for all n); padding can cost more than the caches saved (C76_padding)."
  },
  {
   "property": "C77",
   "status": "partial",
   "theorems": [
    "Pigro.C77_by_call_partial",
    "Pigro.C77_once_partial",
    "Pigro.C77_by_ref_exclusive_partial",
    "Pigro.C77_by_ref_stale",
    "Pigro.C77_by_ref_not_fresh"
   ],
   "note": "True of [&] { return x(); } as dependency (code that keeps or drops the state of the called object and does not dangle; pure functions). False of std::ref(x): if others evaluated x after a change, a lazy function of std::ref(x) returns its old value (C77_by_ref_stale, for all functions, changes and histories); it is right if nobody else evaluates x. The pinned code dangles on the first call (C04_pinned_never_returns, C71_pinned_dangles)."
  },
  {
   "property": "C78",
   "status": "proved",
   "theorems": [
    "Pigro.C78_moves",
    "Pigro.LM.C78_memory",
    "Pigro.C78_moved_from_stale",
    "Pigro.C78_destroyed",
    "Pigro.LM.C78_destroyed",
    "Pigro.C78_moves_that_copy",
    "Pigro.C78_absent",
    "Pigro.LM.C78_absent"
   ],
   "note": "True of all variants of the code at the abstract level, and of the pinned code (with and without the deduction guide) with objects that have addresses and lifetimes. C78_moved_from_stale: the condition is needed, a lazy function that has been moved from can still be called but returns what is left of its cached value."
  },
  {
   "property": "C79",
   "status": "partial",
   "theorems": [
    "Pigro.C79_value",
    "Pigro.C79_lazy_partial",
    "Pigro.C79_loads_partial",
    "Pigro.C79_documented_partial",
    "Pigro.C79_pinned",
    "Pigro.C79_nan"
   ],
   "note": "Proved for the code with the caches kept (C79_value, C79_lazy_partial and C79_documented_partial also if all caches are lost), results by value. False of the pinned code (C79_pinned: undefined behaviour). C79_nan: the value must not be different from itself."
  },
  {
   "property": "C80",
   "status": "proved",
   "theorems": [
    "Pigro.LM.C80_as_written",
    "Pigro.LM.C80_composed",
    "Pigro.LM.C80_empty_constant_dangles",
    "Pigro.LM.C80_fresh",
    "Pigro.LM.C80_recalculation",
    "Pigro.LM.C80_copies_reinvoke",
    "Pigro.LM.C80_half_repaired_stale",
    "Pigro.LM.C80_others_untouched",
    "Pigro.LM.C80_defined",
    "Pigro.LM.C80_dangles"
   ],
   "note": "About the code with references in place of some copies, composed at memory level; with all copies in place it is the program of C53 (C80_as_written). Results by value or by reference; C80_composed says also which references dangle. Callables of empty type have no state (Stateless); with results referring to constants, constants are not of empty type (ConstantsStored, necessary by C80_empty_constant_dangles)."
  },
  {
   "property": "C81",
   "status": "partial",
   "theorems": [
    "Pigro.Eff.C81_refines",
    "Pigro.Eff.C81_fresh_partial",
    "Pigro.Eff.C81_stale",
    "Pigro.Eff.C81_blind",
    "Pigro.Eff.C81_meddling"
   ],
   "note": "False in full: after a call was left with an exception, dependencies have kept values the function has not seen (C81_stale). Proved for variables that no evaluation was left with an exception for, and for glue that keeps nothing for all. Both conditions on comparisons are needed (C81_blind, C81_meddling). With pure comparisons the model is that of C01 (C81_refines)."
  },
  {
   "property": "C82",
   "status": "proved",
   "theorems": [
    "Pigro.C82_interference",
    "Pigro.C82_readers",
    "Pigro.C82_any_order",
    "Pigro.LM.C82_in_memory"
   ],
   "note": "C82_meddling shows that the condition on the others is needed. Interleaving is that of whole operations: calls are not interrupted."
  },
  {
   "property": "C83",
   "status": "partial",
   "theorems": [
    "Pigro.Re.C83_settled_partial",
    "Pigro.Re.C83_bottomless",
    "Pigro.Re.C83_plain",
    "Pigro.Re.C83_bound",
    "Pigro.Re.C83_factorial",
    "Pigro.Re.C83_caught",
    "Pigro.Re.C83_stale_answer",
    "Pigro.Re.C83_uncached",
    "Pigro.Re.C83_pinned",
    "Pigro.Re.C83_pinned_bottomless",
    "Pigro.Re.C83_compiles"
   ],
   "note": "The positive half needs the state to be kept: false of the pinned code, in which no call ends with a value and there is never a previous result (C83_pinned, C83_pinned_bottomless). C83_stale_answer and C83_uncached: what becomes of a recursion with two nested calls with and without a cache. Nested calls from dependencies, and nested calls by polling, are not modelled."
  },
  {
   "property": "C84",
   "status": "partial",
   "theorems": [
    "Pigro.Eff.Opt.C84_fresh_partial",
    "Pigro.Eff.Opt.C84_recalc",
    "Pigro.Eff.Opt.C84_first",
    "Pigro.Eff.Opt.C84_plain",
    "Pigro.Eff.Opt.C84_differs",
    "Pigro.Eff.Opt.C84_self",
    "Pigro.Eff.Opt.C84_sound_iff",
    "Pigro.Eff.Opt.C84_settled_iff",
    "Pigro.Eff.Opt.C84_wasteful",
    "Pigro.Eff.Opt.C84_stale",
    "Pigro.Eff.Opt.C84_first_poll",
    "Pigro.Eff.Opt.C84_pinned"
   ],
   "note": "The full claim is false, for the pinned code (C84_pinned) and also if everything is kept: C84_stale (a change between two different empty optionals of optionals is overlooked, exactly from two levels on: C84_sound_iff), C84_wasteful and C84_settled_iff (an empty optional counts as changed in every call), C84_first_poll (an empty first result counts as unchanged). C84_fresh_partial: values are right with at most one level. C84_recalc: exactly what is calculated again, for any comparison that is not reflexive (NaN)."
  },
  {
   "property": "C85",
   "status": "partial",
   "theorems": [
    "Pigro.Thr.C85_as_written",
    "Pigro.Thr.C85_pinned",
    "Pigro.Thr.C85_alone",
    "Pigro.Thr.C85_distinct_partial",
    "Pigro.Thr.C85_settled_partial",
    "Pigro.Thr.C85_same_iff",
    "Pigro.Thr.C85_polls_race",
    "Pigro.Thr.C85_first_races",
    "Pigro.Thr.C85_stale",
    "Pigro.Thr.C85_locked"
   ],
   "note": "The pinned code has no data races (C85_pinned), because nothing that a call changes is kept (its calls are undefined for another reason, C16). If it is kept, the claim is false: calls of the same object race exactly if the call calculates anything (C85_same_iff, C85_first_races, C85_polls_race), and atomic accesses do not make results right (C85_stale). It holds for different objects (C85_distinct_partial), for calls that calculate nothing (C85_settled_partial), and if calls do not overlap (C85_locked)."
  },
  {
   "property": "C86",
   "status": "partial",
   "theorems": [
    "Pigro.Ms.C86_tuple_size",
    "Pigro.Ms.C86_bound_size",
    "Pigro.Ms.C86_overload_size",
    "Pigro.Ms.C86_overload_large_empty",
    "Pigro.Ms.C86_lazy_size",
    "Pigro.Ms.C86_declarations_needed",
    "Pigro.Ms.C86_uncaptured_size_partial",
    "Pigro.Ms.C86_uncaptured_bytes",
    "Pigro.Ms.C86_uncaptured_declared",
    "Pigro.Ms.C86_empty_object",
    "Pigro.Ms.C86_empty_object_outside"
   ],
   "note": "Tuples, bound callables, overload and recursive: true, without the conditions on clashing types that C32 and C65 need (C86_tuple_size, C86_bound_size, C86_overload_size), thanks to __declspec(empty_bases) (C86_declarations_needed). Lazy functions: exactly as in C55 (C86_lazy_size), i.e. with an int for each plain function. False for uncaptured values: CompressedInvocable lacks the declaration and takes a byte for each empty value (C86_uncaptured_bytes); true if no two things of size zero follow one another (C86_uncaptured_size_partial), and with the declaration (C86_uncaptured_declared). empty_object reads beyond its storage for empty classes of two bytes or more, such as those (C86_empty_object, C86_empty_object_outside)."
  },
  {
   "property": "C87",
   "status": "proved",
   "theorems": [
    "Pigro.Cxx.C87_overload",
    "Pigro.Cxx.C87_overload_copies",
    "Pigro.Cxx.C87_bound",
    "Pigro.Cxx.C87_bound_copies"
   ],
   "note": "Compares the two preprocessor branches of overload.h on the memory model: by a relation between the two memories that is kept by every step (makeBound_twin), with the exact list of copies and moves. That a callable that can only be moved cannot be used with the Microsoft variant follows from the copies (types in the model are all copyable)."
  },
  {
   "property": "C88",
   "status": "partial",
   "theorems": [
    "Pigro.Spc.C88_tuple",
    "Pigro.Spc.C88_constructible",
    "Pigro.Spc.C88_bound",
    "Pigro.Spc.C88_bound_lvalues",
    "Pigro.Spc.C88_uncaptured",
    "Pigro.Spc.C88_lazy_partial",
    "Pigro.Spc.C88_lazy_not_assignable",
    "Pigro.Spc.C88_constructor",
    "Pigro.Spc.C88_constructor_memory"
   ],
   "note": "True of copying and moving (each direction an equivalence), and for uncaptured values also of assignment. False of assignment: tuples and bound callables can be assigned only if nothing is stored, lazy functions never (C88_lazy_not_assignable): stored values are captures, and closures with captures cannot be assigned. Values put into a tuple must be copyable (C88_constructible). Direct initialisation of a tuple of one element from a non-const lvalue or const rvalue does not copy it (C88_constructor), in agreement with the memory model (C88_constructor_memory)."
  },
  {
   "property": "C89",
   "status": "proved",
   "theorems": [
    "Pigro.LM.C89_call",
    "Pigro.LM.C89_every_call",
    "Pigro.LM.C89_between",
    "Pigro.LM.C89_chain",
    "Pigro.LM.C89_not_linear"
   ],
   "note": "Exact count for calls and polls that return; upper bound for those that throw or are undefined (as the first call of the pinned code). C89_not_linear: there is no constant number of copies per function. Copies of results (cache, LazyResult, the tuple of results) are not counted: they are not objects in memory in the model."
  },
  {
   "property": "C90",
   "status": "proved",
   "theorems": [
    "Pigro.Unc.Mk.C90_none",
    "Pigro.Unc.Mk.C90_one",
    "Pigro.Unc.Mk.C90_many",
    "Pigro.Unc.Mk.C90_made",
    "Pigro.Unc.Mk.C90_call",
    "Pigro.Unc.Mk.C90_not_linear"
   ],
   "note": "Copies and moves are counted for any weight of values that moving leaves as it is. C90_made relates the objects to Model/Uncapture.lean (C46, C47). Lifetimes of temporaries are not followed; copy and move constructors do not throw."
  },
  {
   "property": "C91",
   "status": "proved",
   "theorems": [
    "Pigro.Res.C91_settled",
    "Pigro.Res.C91_by_reference",
    "Pigro.Res.C91_at_most",
    "Pigro.Res.C91_first",
    "Pigro.Res.C91_results",
    "Pigro.Res.C91_constants",
    "Pigro.Res.C91_asked"
   ],
   "note": "What is copied is weighed by any function of values (for C91_at_most and C91_first: a tuple weighs what its elements weigh). The pinned code has the guide, and its calls are undefined (C16): the counts without the guide are those of the code with it removed, the count with it those of code that keeps guide and caches. Copies made inside functions of the user are theirs; copies of functions and constants as parts of lazy objects are C89."
  },
  {
   "property": "C92",
   "status": "proved",
   "theorems": [
    "Pigro.LM.C92_lazy",
    "Pigro.LM.C92_make",
    "Pigro.LM.C92_between",
    "Pigro.LM.C92_program",
    "Pigro.LM.C92_chain",
    "Pigro.LM.C92_not_linear",
    "Pigro.LM.C92_doubling"
   ],
   "note": "Copies are counted for any weight of functions and values that moving leaves as it is; moves are not counted, since the model moves where C++ elides. The temporaries of the lambdas' results and the order of the dependencies are as in Model/LazyMake.lean."
  },
  {
   "property": "C93",
   "status": "partial",
   "theorems": [
    "Pigro.C93_call",
    "Pigro.C93_unchanged_partial",
    "Pigro.C93_doubling_partial",
    "Pigro.C93_not_linear",
    "Pigro.C05_dropped_reinvokes_all",
    "Pigro.C04_pinned_never_returns"
   ],
   "note": "C93_call holds for the pinned code. The second part is false of the pinned code, whose calls do not return (C04_pinned_never_returns) and keep nothing (C05_dropped_reinvokes_all for copying glue): it is proved for glue that keeps everything. Paths are counted from the program text (Spec/CallCost.lean)."
  },
  {
   "property": "C94",
   "status": "proved",
   "theorems": [
    "Pigro.Spc.C94_exact",
    "Pigro.Spc.C94_rejected",
    "Pigro.Spc.C94_void",
    "Pigro.Spc.C94_usable"
   ],
   "note": "Well-formedness of each expression of lazy.h is modelled by the special member functions and comparisons it needs (Model/Requirements.lean); that functions can be called with what they are given is C60."
  },
  {
   "property": "C95",
   "status": "partial",
   "theorems": [
    "Pigro.Rem.C95_memory_partial",
    "Pigro.Rem.C95_exact",
    "Pigro.Rem.C95_nan",
    "Pigro.LM.C95_in_memory_partial",
    "Pigro.C04_pinned_never_returns"
   ],
   "note": "Proved for glue that hands nothing over by copy and returns values, and false for every other glue, the pinned code included (C95_exact); needs that no value compares different from itself (C95_nan)."
  },
  {
   "property": "C96",
   "status": "proved",
   "theorems": [
    "Pigro.Fgt.C96_anew",
    "Pigro.Fgt.C96_exact",
    "Pigro.LM.C96_in_memory"
   ],
   "note": "The glue of the pinned code forgets, but for the deduction guide of LazyResult: with it results dangle (C04_pinned_never_returns), so the pinned code itself is not an instance."
  },
  {
   "property": "C97",
   "status": "proved",
   "theorems": [
    "Pigro.Rfc.C97_context",
    "Pigro.Rfc.C97_seen",
    "Pigro.LM.C97_in_memory"
   ],
   "note": "For every glue, the pinned one included; also if the values of dangling results are left alone, which is what there is to see at memory level."
  },
  {
   "property": "C98",
   "status": "partial",
   "theorems": [
    "Pigro.Rfc.C98_one_or_two_partial",
    "Pigro.Rfc.C98_exact",
    "Pigro.Rfc.C98_pinned",
    "Pigro.Rfc.C98_looking_around",
    "Pigro.Rfc.C98_throwing",
    "Pigro.LM.C98_in_memory_partial"
   ],
   "note": "Not true of the pinned code, where polling the nested form reads a dangling result (C98_pinned); C98_exact says for which combinations of hand-overs by copy or reference it holds, the documented design and the pinned code without its deduction guide among them. An f that looks at the world, or may throw, makes a difference."
  },
  {
   "property": "C99",
   "status": "partial",
   "theorems": [
    "Pigro.Rfc.C99_constant_partial",
    "Pigro.Rfc.C99_exact",
    "Pigro.Rfc.C99_pinned",
    "Pigro.Rfc.C99_not_polled",
    "Pigro.LM.C99_in_memory_partial",
    "Pigro.Rfc.C99_all_partial",
    "Pigro.LM.C99_all_in_memory_partial"
   ],
   "note": "Not true of the pinned code, where the value of a constant dangles (C99_pinned). C99_exact: it holds exactly if either results are values or value() binds by reference. The same at memory level."
  }
 ]
}