{
 "C09": "False for n-ary intersections (C09_negation: the outcome depends on addresses). Proved for all sums, binary intersections and differences of handles common to two sessions with arbitrary histories. When Top is certain for intersections of more operands: C69_inter_top_if, C69_inter_top_every_order.",
 "C12": "False: paths() of |0| yields one empty path (C12_negation). Proved for all other handles.",
 "C26": "False above 64 bits (C26_negation: to_ulong throws in a noexcept function). Proved up to 64 bits.",
 "C47": "False beyond the range of alpha_size_type (C47_negation). Proved within it.",
 "C20": "False: copy-assigning a handle to itself when it is the last one destroys its data, and move-assigning it to itself leaves a null pointer (C20_negation). Proved for every other operation.",
 "C16": "False after clear(), which leaves stale positions in the list of uses: the entry just stored may be discarded (C16_negation). Proved for histories without clear().",
 "C48": "False when two configurations share their type of values: init() tests the wrong pointer (C48_negation). Proved otherwise.",
 "C33": "Fails: smallest_span is never updated, so the last computed order is returned (C33_negation, for every correct sort). Partial: the last computed order with a span below the greatest double is returned; it is the smallest when spans do not increase.",
 "C34": "Fails for identifiers of hierarchical levels, hierarchies of one element and the empty order (C34_negation). Partial: flat identifiers, and nesting when levels have two elements or more; documents, not texts.",
 "C31": "For nb = 0 the strategy does not terminate (C31_degenerate).",
 "C17": "False: the cache of homomorphisms ignores the order, so an inductive which reads identifiers may get the result of another order (C17_negation). Proved for homomorphisms whose inductives do not look at the identifiers.",
 "C38": "False for several locals of a level when one is not a selector: they are regrouped (C38_negation). Proved for all operands whose locals are selectors or alone on their level (then, likewise inside them), when the operands of nested intersections have results, and for additive selectors.",
 "C50": "False for orders: equality compares contents, the hash uses the address of the storage (C50_negation), and so do cons homomorphisms. Proved for values, identifiers, nodes, keys of caches and other homomorphisms.",
 "C65": "False: intersections, constants, cons, inductives and two saturation homomorphisms have no vertex though edges lead to them (C65_negation). Proved: what is drawn is exact, and edges join declared vertices when only drawn kinds occur.",
 "C66": "False: all kinds but composition, fixpoint, function, identity, local and sum are exported as the same object (C66_negation). Proved for these kinds.",
 "C67": "The three unique tables are one table of the model; only their existence is distinguished by type. Handles of other threads or of static objects which outlive the manager are excluded, as the code requires (an example shows why).",
 "C68": "The points are the beginning and the end of each evaluation and before each nested one: between them the caches do not change. The exception is a value of the model's type of errors; nothing in the library looks at it. A failing allocation of memory is not covered (the library itself may throw in the middle of updates of its own containers).",
 "C69": "Sessions of operations on SDDs; for sessions which also apply homomorphisms, C92_top. C.limit = none: no table of more than 2^32-1 arcs, otherwise overflow may come first.",
 "C70": "For value types whose texts start with a brace and can be read back: proved for flat_set of integers and bitset (C54_characters).",
 "C71": "Identifiers must have texts which are distinct, on one line, not empty and do not start with a space or '@'; artificial identifiers hold a default-constructed identifier of the user.",
 "C72": "False in the default configuration: the operands of sums of homomorphisms are 4 bytes away from suitable addresses (C72_negation). Proved: bounds and absence of overlap for all types, alignment of data, exact condition for the alignment of arcs and operands (nodes and saturations of the default configuration are aligned). Layout rules of the usual 64-bit ABI. With LIBSDD_PACKED: bounds and absence of overlap proved, alignment is false (C72_packed_negation).",
 "C73": "False in general: the saturation of a fixpoint without part G is written without its closing parenthesis, and two homomorphisms returned by rewrite() have the same text and different results (C73_negation). Proved when, in sums and parts G, only the last operand may end with such an unclosed text: same text if and only if equal up to the grouping of compositions, hence same results.",
 "C75": "False: the number of operands is converted to operands_size_type without check; for any width, a sum of 2^width operands is stored without operands and returns |0| on |1| (C75_negation). Proved when no array of operands has as many elements.",
 "C76": "Evaluations are the misses of the operation caches. The bounds are for SDDs without hierarchy: with hierarchy, the valuations of the result are new SDDs and such bounds do not hold. The calls return (with caches large enough).",
 "C77": "False: strings are written without escapes, so that other identifiers are read back; integers beyond int are undefined when loaded; the exception is thrown in a noexcept function and terminates the program (C77_negation). Proved: the exact condition on integers, and strings without quotes, backslashes and control characters. The reader is JSON restricted to arrays, integers and strings (rapidjson is not in the repository).",
 "C78": "False: arc::valuation() returns a reference into the node, so that assigning it to the only handle on this node deletes the node before the reference is read (C78_negation). Proved for copies, for assignments to other handles, and to the same handle when another reference exists.",
 "C79": "False: the counters of references have 32 bits and wrap when assertions are not compiled; with 2^32 + 1 handles of a datum, the destruction of one of them deletes it (C79_negation). Proved when fewer than 2^32 pointers designate each datum; then the memory with such counters is the memory of C18, C19, C67, C74 and C78.",
 "C80": "False: the number of operands is converted to operands_size_type without check; for any width, the sum of 2^width flat nodes is |0| (linear algorithm) or undefined, their intersection is undefined (C80_negation); with hierarchies, the sum of two SDDs may be wrong (C80_nested_negation). Proved when no operation evaluated by the call has as many operands, which is the case of calls with fewer arguments when there are fewer nested paths at each position of the arguments (in particular without hierarchy).",
 "C81": "False for caches: when the insertion in the list of uses throws, the slot taken from the pool is lost, the cache never becomes full, and once the pool is empty the next storage dereferences a null pointer (C81_negation). Proved: look-ups, contents, and the exact states in which a storage is undefined (C81_cache_partial). Unique tables remain sets when an enlargement fails (C81_table). Other allocations (construction of data, std containers of the algorithms) are not modelled.",
 "C82": "False: an iterator of a std::unordered_map is kept across insertions; when the SDD has more nodes than the map has buckets, it is invalidated by the rehash and then used, which the standard leaves undefined (C82_negation; usual implementations tolerate it). Proved: size() is defined exactly for SDDs with at most as many nodes as buckets. The DOT export gives such an iterator as a hint to emplace_hint: it is defined exactly for SDDs with at most one more distinct SDD below them than the default number of buckets (C82_dot_negation, C82_dot_defined_partial).",
 "C83": "Proved under the condition of C17 that results do not depend on the order (Transfer). Cons and Constant homomorphisms are not stored by the cache and are not counted.",
 "C84": "The archive is the sequence of named values; how cereal writes it is not modelled. Load factors are exact quotients.",
 "C85": "False for insert: it returns an iterator to a copy which is destroyed when the element was already in the set, when the resulting set already existed, or when the copy had spare capacity (C85_negation). Proved: iterators of begin, find and lower_bound, their stability as long as a handle has the set, and the exact condition for those of insert. Addresses are not reused in the model, and a move of the container is supposed to keep its buffer (standard containers do).",
 "C86": "False for sum, intersection, difference and count, which are noexcept: an exception of the comparison or a failed allocation ends the program (C86_negation). Proved: what returns is right, everything returns when nothing throws, the other functions raise the exception, insert and erase then leave the set unchanged. The hash of elements is supposed not to throw; the container of boost and the algorithms of the standard library are modelled by their usual implementations.",
 "C87": "False for intersections: an intersection stops at the first empty result, its rewriting evaluates every operand, in another order (C87_negation). Proved in two cases. C87_fixpoint_partial: a fixpoint whose operand always returns and keeps the paths it is applied to. C87_rewrite_partial: every additive homomorphism whose intersections, where rewriting reaches them or inside rewritten fixpoints, contain no fixpoint; fixpoints, sums, compositions and local homomorphisms may contain fixpoints which do not always return. In both cases the homomorphism and its rewriting return for the same SDDs, with the same result, after every history. Values must be finite sets, the number of arcs unlimited, and user's inductives return homomorphisms without fixpoints (C87_rewrite_partial).",
 "C88": "False: the code reads an element through an iterator after it has been erased, so build_order is undefined whenever a task has no dependency, and empty otherwise (C88_negation, for all models). Even if erased elements kept their content, a task may come before one it depends on, since dependencies are looked for among free tasks only (C88_negation_kept). In this case the partial theorem gives: every task exactly once when some task has no dependency, and the right order when dependencies have no dependencies.",
 "C90": "False, both parts (C90_negation, two concrete task models evaluated by the model of the library): dependencies must have been assigned, not finished; the set of filters accumulates the timing constraints of the previous cores. No general positive statement is proved: schedule_tau is declared a selector and is not one, so that the hypotheses of the general theorems do not hold.",
 "C91": "False for intersections: an intersection may return on two SDDs and not on their union, since it stops at the first empty result (C91_negation). Proved for all the additive homomorphisms whose intersections contain no fixpoint, when user's inductives return homomorphisms without fixpoints, values are finite sets and the number of arcs is unlimited: such a homomorphism returns on every SDD covered by SDDs on which it returns (subsets and unions are special cases).",
 "C93": "False at one address: a block which the system gives just past the end of the buffer is never returned (C93_negation, for every buffer). Proved for all other addresses.",
 "C94": "False for calls on ranges, whose container grows without rewinder (C94_negation: whatever the arena, such calls use it up for ever). Proved when containers get their memory at once and are destroyed in reverse order, or live under a rewinder. That a growing container of Boost allocates the new block before it releases the former one is an assumption on Boost.",
 "C95": "The coroutine of Boost is modelled by its steps; the program may act between any two of them, not only where it is suspended. The pointers of the stack of successors are not counted (in the code they are handles, which the handle of the generator makes superfluous).",
 "C96": "False when code of the user evaluates an application which is in progress (C96_negation: the cache stores it twice, then its hash table removes the wrong one of two equal entries and keeps a destroyed one). Proved when it does not, for all other uses, nested at any depth. Code of the user called inside operations on SDDs (operations on sets of values) may throw but does not use the library.",
 "C97": "The unit is the nested application, operation or destruction, a fixed number of frames of the stack; the sizes of frames are not modelled.",
 "C98": "Partial: for sums and intersections whose number of operands fits in the type which stores it; C98_negation for more. Buckets and the order of entries are in C17 and the other properties of caches; here the entry to evict is chosen by the environment. The operands of an operation being evaluated are read by copies.",
 "C99": "Partial: suitable targets; C99_negation_function, C99_negation_local and C99_negation_nested for the others. Undefined behaviours are from a state where the cache of homomorphisms is empty. The assertions of the code are undefined behaviours here; when they are compiled in, they end the program.",
 "C100": "Partial: values whose size is a multiple of 8, containers not packed; C100_negation_values and C100_negation_packed for the others. Which containers are made, and when, is left to the environment; the negations are on programs of the arena, with the types which the code uses. Whether the attribute `packed` acts on nary_builder depends on the compiler.",
 "C101": "Partial: initializers for all orders; `skip` for orders without artificial identifiers, and for all orders if the default constructed identifier is among those the user expects; C101_negation for the other orders. `operator()` of inductive homomorphisms receives orders, not identifiers: it is not concerned. That the user's code only receives some identifiers is stated as: what it does on the others has no effect on the results.",
 "C102": "Partial: safety, values and canonicity after any number of failed creations; C102_negation: the memory of data whose creation failed is lost, without bound. The requests modelled are the two of the creation of a unified datum (block, new buckets); those of the cache of operations are the subject of C81.",
 "C103": "Partial: exactly which texts are loaded, and the identifiers and nesting of the result; C103_negation: undefined behaviour on each text with an empty array, and arrays of one element are not levels of the result. rapidjson is modelled by a reader of arrays, integers and strings (escapes included); other values are not identifiers.",
 "C104": "Partial: compositions whose left operand is additive, or only its part which is regrouped with a local of the right operand, if any; any right operand; when no local is regrouped, one is defined when the other is; rewritings of sums of any homomorphisms, and of intersections of any selectors without fixpoints. C104_composition_negation and C104_rewrite_negation: the regrouping of locals changes the results when the regrouped part of the left operand of a composition, or the body of a fixpoint, is not additive.",
 "C105": "Partial: all branches which are different homomorphisms, additive or not; all branches when the predicate keeps everything or nothing; conversely, for different branches, when the choice returns so do the predicate and the branches. C105_negation: when both branches are the same homomorphism, the constructor returns it, and the documented equation fails if it is not additive."
}