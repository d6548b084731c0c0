{
 "claims": [
  {
   "property": "C01",
   "status": "proved",
   "theorems": [
    "Verif.C01_equality_is_set_equality",
    "Verif.C01_pointer_equality"
   ],
   "note": ""
  },
  {
   "property": "C02",
   "status": "proved",
   "theorems": [
    "Verif.C02_sum_is_union"
   ],
   "note": ""
  },
  {
   "property": "C03",
   "status": "proved",
   "theorems": [
    "Verif.C03_intersection"
   ],
   "note": ""
  },
  {
   "property": "C04",
   "status": "proved",
   "theorems": [
    "Verif.C04_difference"
   ],
   "note": ""
  },
  {
   "property": "C05",
   "status": "proved",
   "theorems": [
    "Verif.C05_canonical_form"
   ],
   "note": ""
  },
  {
   "property": "C06",
   "status": "proved",
   "theorems": [
    "Verif.C06_boolean_laws",
    "Verif.C06_nary_set"
   ],
   "note": ""
  },
  {
   "property": "C07",
   "status": "proved",
   "theorems": [
    "Verif.C07_same_order_no_top",
    "Verif.C07_constructors_follow"
   ],
   "note": ""
  },
  {
   "property": "C08",
   "status": "proved",
   "theorems": [
    "Verif.C08_incompatible_raise_top"
   ],
   "note": ""
  },
  {
   "property": "C09",
   "status": "partial",
   "theorems": [
    "Verif.C09_negation",
    "Verif.C09_top_independent_of_addresses_partial"
   ],
   "note": "False for n-ary intersections (C09_negation: the outcome depends on addresses). Proved for all sums, binary intersections and differences of handles common to two sessions with arbitrary histories. When Top is certain for intersections of more operands: C69_inter_top_if, C69_inter_top_every_order."
  },
  {
   "property": "C10",
   "status": "proved",
   "theorems": [
    "Verif.C10_size_counts_paths"
   ],
   "note": ""
  },
  {
   "property": "C11",
   "status": "proved",
   "theorems": [
    "Verif.C11_paths_exact"
   ],
   "note": ""
  },
  {
   "property": "C12",
   "status": "partial",
   "theorems": [
    "Verif.C12_negation",
    "Verif.C12_paths_nonempty_partial"
   ],
   "note": "False: paths() of |0| yields one empty path (C12_negation). Proved for all other handles."
  },
  {
   "property": "C13",
   "status": "proved",
   "theorems": [
    "Verif.C13_independent_of_addresses",
    "Verif.C13_program_denotation",
    "Verif.C13_homomorphisms"
   ],
   "note": ""
  },
  {
   "property": "C14",
   "status": "proved",
   "theorems": [
    "Verif.C14_cache_transparent_results",
    "Verif.C14_cache_transparent_exact"
   ],
   "note": ""
  },
  {
   "property": "C15",
   "status": "proved",
   "theorems": [
    "Verif.C15_cache_invariants",
    "Verif.C15_sessions",
    "Verif.C15_homomorphisms"
   ],
   "note": ""
  },
  {
   "property": "C16",
   "status": "partial",
   "theorems": [
    "Verif.C16_lru_eviction_partial",
    "Verif.C16_negation"
   ],
   "note": "False after clear(), which leaves stale positions in the list of uses: the entry just stored may be discarded (C16_negation). Proved for histories without clear()."
  },
  {
   "property": "C17",
   "status": "partial",
   "theorems": [
    "Verif.C17_history_partial",
    "Verif.C17_negation"
   ],
   "note": "False: the cache of homomorphisms ignores the order, so an inductive which reads identifiers may get the result of another order (C17_negation). Proved for homomorphisms whose inductives do not look at the identifiers."
  },
  {
   "property": "C18",
   "status": "proved",
   "theorems": [
    "Verif.C18_unique_table",
    "Verif.C18_stable_addresses"
   ],
   "note": ""
  },
  {
   "property": "C19",
   "status": "proved",
   "theorems": [
    "Verif.C19_reference_counting"
   ],
   "note": ""
  },
  {
   "property": "C20",
   "status": "partial",
   "theorems": [
    "Verif.C20_negation",
    "Verif.C20_self_assignment_partial"
   ],
   "note": "False: copy-assigning a handle to itself when it is the last one destroys its data, and move-assigning it to itself leaves a null pointer (C20_negation). Proved for every other operation."
  },
  {
   "property": "C21",
   "status": "proved",
   "theorems": [
    "Verif.C21_hash_table_is_a_set",
    "Verif.C21_links",
    "Verif.C21_two_phase_insertion"
   ],
   "note": ""
  },
  {
   "property": "C22",
   "status": "proved",
   "theorems": [
    "Verif.C22_next_power_of_2",
    "Verif.C22_next_power_of_2_32"
   ],
   "note": ""
  },
  {
   "property": "C23",
   "status": "proved",
   "theorems": [
    "Verif.C23_arena_blocks",
    "Verif.C23_rewinder_restores"
   ],
   "note": ""
  },
  {
   "property": "C24",
   "status": "proved",
   "theorems": [
    "Verif.C24_flat_set",
    "Verif.C24_flat_set_ext"
   ],
   "note": ""
  },
  {
   "property": "C25",
   "status": "proved",
   "theorems": [
    "Verif.C25_bitset",
    "Verif.C25_bitset_of_list"
   ],
   "note": ""
  },
  {
   "property": "C26",
   "status": "partial",
   "theorems": [
    "Verif.C26_negation",
    "Verif.C26_bitset_order_partial"
   ],
   "note": "False above 64 bits (C26_negation: to_ulong throws in a noexcept function). Proved up to 64 bits."
  },
  {
   "property": "C27",
   "status": "proved",
   "theorems": [
    "Verif.C27_order_mirrors_builder"
   ],
   "note": ""
  },
  {
   "property": "C28",
   "status": "proved",
   "theorems": [
    "Verif.C28_identifiers"
   ],
   "note": ""
  },
  {
   "property": "C29",
   "status": "proved",
   "theorems": [
    "Verif.C29_builders"
   ],
   "note": ""
  },
  {
   "property": "C30",
   "status": "proved",
   "theorems": [
    "Verif.C30_flatten"
   ],
   "note": ""
  },
  {
   "property": "C31",
   "status": "proved",
   "theorems": [
    "Verif.C31_identifiers_per_hierarchy",
    "Verif.C31_degenerate"
   ],
   "note": "For nb = 0 the strategy does not terminate (C31_degenerate)."
  },
  {
   "property": "C32",
   "status": "proved",
   "theorems": [
    "Verif.C32_force_permutation",
    "Verif.C32_hypergraph"
   ],
   "note": ""
  },
  {
   "property": "C33",
   "status": "partial",
   "theorems": [
    "Verif.C33_negation",
    "Verif.C33_force_keeps_last_partial"
   ],
   "note": "Fails: smallest_span is never updated, so the last computed order is returned (C33_negation, for every correct sort). Partial: the last computed order with a span below the greatest double is returned; it is the smallest when spans do not increase."
  },
  {
   "property": "C34",
   "status": "partial",
   "theorems": [
    "Verif.C34_negation",
    "Verif.C34_dump_load_partial"
   ],
   "note": "Fails for identifiers of hierarchical levels, hierarchies of one element and the empty order (C34_negation). Partial: flat identifiers, and nesting when levels have two elements or more; documents, not texts."
  },
  {
   "property": "C35",
   "status": "proved",
   "theorems": [
    "Verif.C35_path_by_path",
    "Verif.C35_union",
    "Verif.C35_additive_closed"
   ],
   "note": ""
  },
  {
   "property": "C36",
   "status": "proved",
   "theorems": [
    "Verif.C36_composition",
    "Verif.C36_not_regrouped"
   ],
   "note": ""
  },
  {
   "property": "C37",
   "status": "proved",
   "theorems": [
    "Verif.C37_sum",
    "Verif.C37_operands",
    "Verif.C37_empty"
   ],
   "note": ""
  },
  {
   "property": "C38",
   "status": "partial",
   "theorems": [
    "Verif.C38_intersection_partial",
    "Verif.C38_additive_selectors",
    "Verif.C38_negation"
   ],
   "note": "False for several locals of a level when one is not a selector: they are regrouped (C38_negation). Proved for all operands whose locals are selectors or alone on their level (then, likewise inside them), when the operands of nested intersections have results, and for additive selectors."
  },
  {
   "property": "C39",
   "status": "proved",
   "theorems": [
    "Verif.C39_if_then_else",
    "Verif.C39_rejected"
   ],
   "note": ""
  },
  {
   "property": "C40",
   "status": "proved",
   "theorems": [
    "Verif.C40_fixpoint",
    "Verif.C40_least"
   ],
   "note": ""
  },
  {
   "property": "C41",
   "status": "proved",
   "theorems": [
    "Verif.C41_rewrite"
   ],
   "note": ""
  },
  {
   "property": "C42",
   "status": "proved",
   "theorems": [
    "Verif.C42_selector"
   ],
   "note": ""
  },
  {
   "property": "C43",
   "status": "proved",
   "theorems": [
    "Verif.C43_skipped",
    "Verif.C43_below"
   ],
   "note": ""
  },
  {
   "property": "C44",
   "status": "proved",
   "theorems": [
    "Verif.C44_function",
    "Verif.C44_function_paths",
    "Verif.C44_carrier",
    "Verif.C44_local"
   ],
   "note": ""
  },
  {
   "property": "C45",
   "status": "proved",
   "theorems": [
    "Verif.C45_sdd_of_order"
   ],
   "note": ""
  },
  {
   "property": "C46",
   "status": "proved",
   "theorems": [
    "Verif.C46_operands"
   ],
   "note": ""
  },
  {
   "property": "C47",
   "status": "partial",
   "theorems": [
    "Verif.C47_negation",
    "Verif.C47_arcs_kept_partial"
   ],
   "note": "False beyond the range of alpha_size_type (C47_negation). Proved within it."
  },
  {
   "property": "C48",
   "status": "partial",
   "theorems": [
    "Verif.C48_one_manager_partial",
    "Verif.C48_negation"
   ],
   "note": "False when two configurations share their type of values: init() tests the wrong pointer (C48_negation). Proved otherwise."
  },
  {
   "property": "C49",
   "status": "proved",
   "theorems": [
    "Verif.C49_statistics"
   ],
   "note": ""
  },
  {
   "property": "C50",
   "status": "partial",
   "theorems": [
    "Verif.C50_hash_partial",
    "Verif.C50_bitset",
    "Verif.C50_negation"
   ],
   "note": "False for orders: equality compares contents, the hash uses the address of the storage (C50_negation), and so do cons homomorphisms. Proved for values, identifiers, nodes, keys of caches and other homomorphisms."
  },
  {
   "property": "C51",
   "status": "proved",
   "theorems": [
    "Verif.C51_termination",
    "Verif.C51_finite_values"
   ],
   "note": ""
  },
  {
   "property": "C52",
   "status": "proved",
   "theorems": [
    "Verif.C52_exception_safe"
   ],
   "note": ""
  },
  {
   "property": "C53",
   "status": "proved",
   "theorems": [
    "Verif.C53_any_order"
   ],
   "note": ""
  },
  {
   "property": "C54",
   "status": "proved",
   "theorems": [
    "Verif.C54_characters",
    "Verif.C54_print_flat_set",
    "Verif.C54_print_other"
   ],
   "note": ""
  },
  {
   "property": "C55",
   "status": "proved",
   "theorems": [
    "Verif.C55_cache_is_a_bounded_map",
    "Verif.C55_cache_construction",
    "Verif.C55_cache_refines_list"
   ],
   "note": ""
  },
  {
   "property": "C56",
   "status": "proved",
   "theorems": [
    "Verif.C56_order_equality"
   ],
   "note": ""
  },
  {
   "property": "C57",
   "status": "proved",
   "theorems": [
    "Verif.C57_returns"
   ],
   "note": ""
  },
  {
   "property": "C58",
   "status": "proved",
   "theorems": [
    "Verif.C58_unique_table_statistics",
    "Verif.C58_cache_statistics"
   ],
   "note": ""
  },
  {
   "property": "C59",
   "status": "proved",
   "theorems": [
    "Verif.C59_size"
   ],
   "note": ""
  },
  {
   "property": "C60",
   "status": "proved",
   "theorems": [
    "Verif.C60_dot_export",
    "Verif.C60_dot_labels"
   ],
   "note": ""
  },
  {
   "property": "C61",
   "status": "proved",
   "theorems": [
    "Verif.C61_visit",
    "Verif.C61_equality"
   ],
   "note": ""
  },
  {
   "property": "C62",
   "status": "proved",
   "theorems": [
    "Verif.C62_returns",
    "Verif.C62_rewrite"
   ],
   "note": ""
  },
  {
   "property": "C63",
   "status": "proved",
   "theorems": [
    "Verif.C63_hanoi"
   ],
   "note": ""
  },
  {
   "property": "C64",
   "status": "proved",
   "theorems": [
    "Verif.C64_dictionary"
   ],
   "note": ""
  },
  {
   "property": "C65",
   "status": "partial",
   "theorems": [
    "Verif.C65_dot_partial",
    "Verif.C65_edges_partial",
    "Verif.C65_negation"
   ],
   "note": "False: intersections, constants, cons, inductives and two saturation homomorphisms have no vertex though edges lead to them (C65_negation). Proved: what is drawn is exact, and edges join declared vertices when only drawn kinds occur."
  },
  {
   "property": "C66",
   "status": "partial",
   "theorems": [
    "Verif.C66_json_partial",
    "Verif.C66_negation"
   ],
   "note": "False: all kinds but composition, fixpoint, function, identity, local and sum are exported as the same object (C66_negation). Proved for these kinds."
  },
  {
   "property": "C67",
   "status": "proved",
   "theorems": [
    "Verif.C67_shutdown"
   ],
   "note": "The three unique tables are one table of the model; only their existence is distinguished by type. Handles of other threads or of static objects which outlive the manager are excluded, as the code requires (an example shows why)."
  },
  {
   "property": "C68",
   "status": "proved",
   "theorems": [
    "Verif.C68_operations",
    "Verif.C68_homomorphisms"
   ],
   "note": "The points are the beginning and the end of each evaluation and before each nested one: between them the caches do not change. The exception is a value of the model's type of errors; nothing in the library looks at it. A failing allocation of memory is not covered (the library itself may throw in the middle of updates of its own containers)."
  },
  {
   "property": "C69",
   "status": "proved",
   "theorems": [
    "Verif.C69_top_iff_incompatible",
    "Verif.C69_top_operands",
    "Verif.C69_handles_compatible",
    "Verif.C69_inter_top_only_if",
    "Verif.C69_inter_top_if",
    "Verif.C69_inter_top_every_order"
   ],
   "note": "Sessions of operations on SDDs; for sessions which also apply homomorphisms, C92_top. C.limit = none: no table of more than 2^32-1 arcs, otherwise overflow may come first."
  },
  {
   "property": "C70",
   "status": "proved",
   "theorems": [
    "Verif.C70_text_identifies",
    "Verif.C70_top_description"
   ],
   "note": "For value types whose texts start with a brace and can be read back: proved for flat_set of integers and bitset (C54_characters)."
  },
  {
   "property": "C71",
   "status": "proved",
   "theorems": [
    "Verif.C71_order_text",
    "Verif.C71_error_text"
   ],
   "note": "Identifiers must have texts which are distinct, on one line, not empty and do not start with a space or '@'; artificial identifiers hold a default-constructed identifier of the user."
  },
  {
   "property": "C72",
   "status": "partial",
   "theorems": [
    "Verif.C72_fits",
    "Verif.C72_data_aligned",
    "Verif.C72_alignment_partial",
    "Verif.C72_negation",
    "Verif.C72_packed_fits",
    "Verif.C72_packed_negation",
    "Verif.C72_arena"
   ],
   "note": "False in the default configuration: the operands of sums of homomorphisms are 4 bytes away from suitable addresses (C72_negation). Proved: bounds and absence of overlap for all types, alignment of data, exact condition for the alignment of arcs and operands (nodes and saturations of the default configuration are aligned). Layout rules of the usual 64-bit ABI. With LIBSDD_PACKED: bounds and absence of overlap proved, alignment is false (C72_packed_negation)."
  },
  {
   "property": "C73",
   "status": "partial",
   "theorems": [
    "Verif.C73_text_defined",
    "Verif.C73_text_identifies_partial",
    "Verif.C73_same_text_same_results_partial",
    "Verif.C73_grouping",
    "Verif.C73_negation"
   ],
   "note": "False in general: the saturation of a fixpoint without part G is written without its closing parenthesis, and two homomorphisms returned by rewrite() have the same text and different results (C73_negation). Proved when, in sums and parts G, only the last operand may end with such an unclosed text: same text if and only if equal up to the grouping of compositions, hence same results."
  },
  {
   "property": "C74",
   "status": "proved",
   "theorems": [
    "Verif.C74_equality",
    "Verif.C74_operands"
   ],
   "note": ""
  },
  {
   "property": "C75",
   "status": "partial",
   "theorems": [
    "Verif.C75_negation",
    "Verif.C75_operands_kept_partial"
   ],
   "note": "False: the number of operands is converted to operands_size_type without check; for any width, a sum of 2^width operands is stored without operands and returns |0| on |1| (C75_negation). Proved when no array of operands has as many elements."
  },
  {
   "property": "C76",
   "status": "proved",
   "theorems": [
    "Verif.C76_result_size",
    "Verif.C76_evaluated_once",
    "Verif.C76_evaluations"
   ],
   "note": "Evaluations are the misses of the operation caches. The bounds are for SDDs without hierarchy: with hierarchy, the valuations of the result are new SDDs and such bounds do not hold. The calls return (with caches large enough)."
  },
  {
   "property": "C77",
   "status": "partial",
   "theorems": [
    "Verif.C77_integers_partial",
    "Verif.C77_strings_partial",
    "Verif.C77_negation"
   ],
   "note": "False: strings are written without escapes, so that other identifiers are read back; integers beyond int are undefined when loaded; the exception is thrown in a noexcept function and terminates the program (C77_negation). Proved: the exact condition on integers, and strings without quotes, backslashes and control characters. The reader is JSON restricted to arrays, integers and strings (rapidjson is not in the repository)."
  },
  {
   "property": "C78",
   "status": "partial",
   "theorems": [
    "Verif.C78_parts_partial",
    "Verif.C78_negation"
   ],
   "note": "False: arc::valuation() returns a reference into the node, so that assigning it to the only handle on this node deletes the node before the reference is read (C78_negation). Proved for copies, for assignments to other handles, and to the same handle when another reference exists."
  },
  {
   "property": "C79",
   "status": "partial",
   "theorems": [
    "Verif.C79_counters_partial",
    "Verif.C79_negation"
   ],
   "note": "False: the counters of references have 32 bits and wrap when assertions are not compiled; with 2^32 + 1 handles of a datum, the destruction of one of them deletes it (C79_negation). Proved when fewer than 2^32 pointers designate each datum; then the memory with such counters is the memory of C18, C19, C67, C74 and C78."
  },
  {
   "property": "C80",
   "status": "partial",
   "theorems": [
    "Verif.C80_negation",
    "Verif.C80_operands_kept_partial",
    "Verif.C80_nested_negation"
   ],
   "note": "False: the number of operands is converted to operands_size_type without check; for any width, the sum of 2^width flat nodes is |0| (linear algorithm) or undefined, their intersection is undefined (C80_negation); with hierarchies, the sum of two SDDs may be wrong (C80_nested_negation). Proved when no operation evaluated by the call has as many operands, which is the case of calls with fewer arguments when there are fewer nested paths at each position of the arguments (in particular without hierarchy)."
  },
  {
   "property": "C81",
   "status": "partial",
   "theorems": [
    "Verif.C81_cache_partial",
    "Verif.C81_negation",
    "Verif.C81_table"
   ],
   "note": "False for caches: when the insertion in the list of uses throws, the slot taken from the pool is lost, the cache never becomes full, and once the pool is empty the next storage dereferences a null pointer (C81_negation). Proved: look-ups, contents, and the exact states in which a storage is undefined (C81_cache_partial). Unique tables remain sets when an enlargement fails (C81_table). Other allocations (construction of data, std containers of the algorithms) are not modelled."
  },
  {
   "property": "C82",
   "status": "partial",
   "theorems": [
    "Verif.C82_size_defined_partial",
    "Verif.C82_dot_defined_partial",
    "Verif.C82_negation",
    "Verif.C82_dot_negation"
   ],
   "note": "False: an iterator of a std::unordered_map is kept across insertions; when the SDD has more nodes than the map has buckets, it is invalidated by the rehash and then used, which the standard leaves undefined (C82_negation; usual implementations tolerate it). Proved: size() is defined exactly for SDDs with at most as many nodes as buckets. The DOT export gives such an iterator as a hint to emplace_hint: it is defined exactly for SDDs with at most one more distinct SDD below them than the default number of buckets (C82_dot_negation, C82_dot_defined_partial)."
  },
  {
   "property": "C83",
   "status": "proved",
   "theorems": [
    "Verif.C83_evaluated_once"
   ],
   "note": "Proved under the condition of C17 that results do not depend on the order (Transfer). Cons and Constant homomorphisms are not stored by the cache and are not counted."
  },
  {
   "property": "C84",
   "status": "proved",
   "theorems": [
    "Verif.C84_sdd",
    "Verif.C84_unique_table",
    "Verif.C84_cache",
    "Verif.C84_manager"
   ],
   "note": "The archive is the sequence of named values; how cereal writes it is not modelled. Load factors are exact quotients."
  },
  {
   "property": "C85",
   "status": "partial",
   "theorems": [
    "Verif.C85_iterators_partial",
    "Verif.C85_negation"
   ],
   "note": "False for insert: it returns an iterator to a copy which is destroyed when the element was already in the set, when the resulting set already existed, or when the copy had spare capacity (C85_negation). Proved: iterators of begin, find and lower_bound, their stability as long as a handle has the set, and the exact condition for those of insert. Addresses are not reused in the model, and a move of the container is supposed to keep its buffer (standard containers do)."
  },
  {
   "property": "C86",
   "status": "partial",
   "theorems": [
    "Verif.C86_exceptions_partial",
    "Verif.C86_negation"
   ],
   "note": "False for sum, intersection, difference and count, which are noexcept: an exception of the comparison or a failed allocation ends the program (C86_negation). Proved: what returns is right, everything returns when nothing throws, the other functions raise the exception, insert and erase then leave the set unchanged. The hash of elements is supposed not to throw; the container of boost and the algorithms of the standard library are modelled by their usual implementations."
  },
  {
   "property": "C87",
   "status": "partial",
   "theorems": [
    "Verif.C87_fixpoint_partial",
    "Verif.C87_rewrite_partial",
    "Verif.C87_negation"
   ],
   "note": "False for intersections: an intersection stops at the first empty result, its rewriting evaluates every operand, in another order (C87_negation). Proved in two cases. C87_fixpoint_partial: a fixpoint whose operand always returns and keeps the paths it is applied to. C87_rewrite_partial: every additive homomorphism whose intersections, where rewriting reaches them or inside rewritten fixpoints, contain no fixpoint; fixpoints, sums, compositions and local homomorphisms may contain fixpoints which do not always return. In both cases the homomorphism and its rewriting return for the same SDDs, with the same result, after every history. Values must be finite sets, the number of arcs unlimited, and user's inductives return homomorphisms without fixpoints (C87_rewrite_partial)."
  },
  {
   "property": "C88",
   "status": "partial",
   "theorems": [
    "Verif.C88_negation",
    "Verif.C88_negation_kept",
    "Verif.C88_order_partial"
   ],
   "note": "False: the code reads an element through an iterator after it has been erased, so build_order is undefined whenever a task has no dependency, and empty otherwise (C88_negation, for all models). Even if erased elements kept their content, a task may come before one it depends on, since dependencies are looked for among free tasks only (C88_negation_kept). In this case the partial theorem gives: every task exactly once when some task has no dependency, and the right order when dependencies have no dependencies."
  },
  {
   "property": "C89",
   "status": "proved",
   "theorems": [
    "Verif.C89_generated"
   ],
   "note": ""
  },
  {
   "property": "C90",
   "status": "partial",
   "theorems": [
    "Verif.C90_negation",
    "Verif.C90_negation_selector"
   ],
   "note": "False, both parts (C90_negation, two concrete task models evaluated by the model of the library): dependencies must have been assigned, not finished; the set of filters accumulates the timing constraints of the previous cores. No general positive statement is proved: schedule_tau is declared a selector and is not one, so that the hypotheses of the general theorems do not hold."
  },
  {
   "property": "C91",
   "status": "partial",
   "theorems": [
    "Verif.C91_paths_partial",
    "Verif.C91_negation"
   ],
   "note": "False for intersections: an intersection may return on two SDDs and not on their union, since it stops at the first empty result (C91_negation). Proved for all the additive homomorphisms whose intersections contain no fixpoint, when user's inductives return homomorphisms without fixpoints, values are finite sets and the number of arcs is unlimited: such a homomorphism returns on every SDD covered by SDDs on which it returns (subsets and unions are special cases)."
  },
  {
   "property": "C92",
   "status": "proved",
   "theorems": [
    "Verif.C92_equality",
    "Verif.C92_operations",
    "Verif.C92_top",
    "Verif.C92_top_intersection",
    "Verif.C92_application",
    "Verif.C92_distributes"
   ],
   "note": ""
  },
  {
   "property": "C93",
   "status": "partial",
   "theorems": [
    "Verif.C93_negation",
    "Verif.C93_returned_partial"
   ],
   "note": "False at one address: a block which the system gives just past the end of the buffer is never returned (C93_negation, for every buffer). Proved for all other addresses."
  },
  {
   "property": "C94",
   "status": "partial",
   "theorems": [
    "Verif.C94_negation",
    "Verif.C94_reserved_partial"
   ],
   "note": "False for calls on ranges, whose container grows without rewinder (C94_negation: whatever the arena, such calls use it up for ever). Proved when containers get their memory at once and are destroyed in reverse order, or live under a rewinder. That a growing container of Boost allocates the new block before it releases the former one is an assumption on Boost."
  },
  {
   "property": "C95",
   "status": "proved",
   "theorems": [
    "Verif.C95_generator",
    "Verif.C95_program"
   ],
   "note": "The coroutine of Boost is modelled by its steps; the program may act between any two of them, not only where it is suspended. The pointers of the stack of successors are not counted (in the code they are handles, which the handle of the generator makes superfluous)."
  },
  {
   "property": "C96",
   "status": "partial",
   "theorems": [
    "Verif.C96_reentrant_partial",
    "Verif.C96_negation"
   ],
   "note": "False when code of the user evaluates an application which is in progress (C96_negation: the cache stores it twice, then its hash table removes the wrong one of two equal entries and keeps a destroyed one). Proved when it does not, for all other uses, nested at any depth. Code of the user called inside operations on SDDs (operations on sets of values) may throw but does not use the library."
  },
  {
   "property": "C97",
   "status": "proved",
   "theorems": [
    "Verif.C97_operations_depth",
    "Verif.C97_applications_depth",
    "Verif.C97_depth_grows",
    "Verif.C97_destructions_depth",
    "Verif.C97_sdd_destructions_depth"
   ],
   "note": "The unit is the nested application, operation or destruction, a fixed number of frames of the stack; the sizes of frames are not modelled."
  },
  {
   "property": "C98",
   "status": "partial",
   "theorems": [
    "Verif.C98_cached_operations_partial",
    "Verif.C98_released_partial",
    "Verif.C98_stable_keys_partial",
    "Verif.C98_negation"
   ],
   "note": "Partial: for sums and intersections whose number of operands fits in the type which stores it; C98_negation for more. Buckets and the order of entries are in C17 and the other properties of caches; here the entry to evict is chosen by the environment. The operands of an operation being evaluated are read by copies."
  },
  {
   "property": "C99",
   "status": "partial",
   "theorems": [
    "Verif.C99_targets_partial",
    "Verif.C99_negation_function",
    "Verif.C99_negation_local",
    "Verif.C99_negation_nested"
   ],
   "note": "Partial: suitable targets; C99_negation_function, C99_negation_local and C99_negation_nested for the others. Undefined behaviours are from a state where the cache of homomorphisms is empty. The assertions of the code are undefined behaviours here; when they are compiled in, they end the program."
  },
  {
   "property": "C100",
   "status": "partial",
   "theorems": [
    "Verif.C100_aligned_partial",
    "Verif.C100_negation_values",
    "Verif.C100_negation_packed"
   ],
   "note": "Partial: values whose size is a multiple of 8, containers not packed; C100_negation_values and C100_negation_packed for the others. Which containers are made, and when, is left to the environment; the negations are on programs of the arena, with the types which the code uses. Whether the attribute `packed` acts on nary_builder depends on the compiler."
  },
  {
   "property": "C101",
   "status": "partial",
   "theorems": [
    "Verif.C101_initializer_partial",
    "Verif.C101_skip_default_partial",
    "Verif.C101_skip_partial",
    "Verif.C101_negation"
   ],
   "note": "Partial: initializers for all orders; `skip` for orders without artificial identifiers, and for all orders if the default constructed identifier is among those the user expects; C101_negation for the other orders. `operator()` of inductive homomorphisms receives orders, not identifiers: it is not concerned. That the user's code only receives some identifiers is stated as: what it does on the others has no effect on the results."
  },
  {
   "property": "C102",
   "status": "partial",
   "theorems": [
    "Verif.C102_memory_exhausted_partial",
    "Verif.C102_negation"
   ],
   "note": "Partial: safety, values and canonicity after any number of failed creations; C102_negation: the memory of data whose creation failed is lost, without bound. The requests modelled are the two of the creation of a unified datum (block, new buckets); those of the cache of operations are the subject of C81."
  },
  {
   "property": "C103",
   "status": "partial",
   "theorems": [
    "Verif.C103_load_integers_partial",
    "Verif.C103_load_strings_partial",
    "Verif.C103_negation"
   ],
   "note": "Partial: exactly which texts are loaded, and the identifiers and nesting of the result; C103_negation: undefined behaviour on each text with an empty array, and arrays of one element are not levels of the result. rapidjson is modelled by a reader of arrays, integers and strings (escapes included); other values are not identifiers."
  },
  {
   "property": "C104",
   "status": "partial",
   "theorems": [
    "Verif.C104_composition_partial",
    "Verif.C104_regrouped_partial",
    "Verif.C104_apart_partial",
    "Verif.C104_rewrite_partial",
    "Verif.C104_rewrite_selectors_partial",
    "Verif.C104_composition_negation",
    "Verif.C104_rewrite_negation"
   ],
   "note": "Partial: compositions whose left operand is additive, or only its part which is regrouped with a local of the right operand, if any; any right operand; when no local is regrouped, one is defined when the other is; rewritings of sums of any homomorphisms, and of intersections of any selectors without fixpoints. C104_composition_negation and C104_rewrite_negation: the regrouping of locals changes the results when the regrouped part of the left operand of a composition, or the body of a fixpoint, is not additive."
  },
  {
   "property": "C105",
   "status": "partial",
   "theorems": [
    "Verif.C105_branches_partial",
    "Verif.C105_defined_partial",
    "Verif.C105_negation"
   ],
   "note": "Partial: all branches which are different homomorphisms, additive or not; all branches when the predicate keeps everything or nothing; conversely, for different branches, when the choice returns so do the predicate and the branches. C105_negation: when both branches are the same homomorphism, the constructor returns it, and the documented equation fails if it is not additive."
  }
 ]
}