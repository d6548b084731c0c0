{"id": "C01", "title": "Equality of SDDs is equality of sets", "statement": "Two SDD handles obtained from the same manager compare equal (operator==) if and only if they contain the same set of paths, however each of them was built.", "quantifier": "all pairs of SDDs in canonical form, over any values type, any number of variables and hierarchy levels", "why_tests_cant": "A test compares a few pairs; canonicity is a statement about every pair of diagrams of every depth.", "anchors": ["sdd/dd/definition.hh: SDD::operator==, create_node", "sdd/dd/node.hh: node::operator==", "sdd/dd/alpha.hh: alpha_builder"]}
{"id": "C02", "title": "operator+ and sum() compute the set union", "statement": "The SDD returned by sum of any collection of operands contains exactly the paths contained in at least one operand, whenever no Top exception is raised.", "quantifier": "all finite collections of canonical operands, any duplicates, |0| and |1| included, any depth", "why_tests_cant": "The partition-refinement loop has many interleavings of its internal map; only an invariant covers all of them.", "anchors": ["sdd/dd/sum.hh: sum_op_impl::work (both overloads), sum_builder_policy, dd::sum, operator+"]}
{"id": "C03", "title": "operator& and intersection() compute the set intersection", "statement": "The SDD returned by intersection of any non-empty collection of operands contains exactly the paths contained in every operand, whenever no Top exception is raised; the intersection of no operand is |0|.", "quantifier": "all finite collections of canonical operands", "why_tests_cant": "Unbounded number of operands and depth, and early exits on empty intermediate results.", "anchors": ["sdd/dd/intersection.hh: intersection_op_impl::work, intersection_builder_policy, dd::intersection, operator&"]}
{"id": "C04", "title": "operator- computes the set difference", "statement": "x - y contains exactly the paths of x that are not in y, whenever no Top exception is raised.", "quantifier": "all pairs of canonical SDDs", "why_tests_cant": "Difference recurses through valuations and successors at the same time; all shapes must be covered.", "anchors": ["sdd/dd/difference.hh: difference_visitor, dd::difference, operator-"]}
{"id": "C05", "title": "Every constructed SDD is in canonical form", "statement": "Every SDD produced by constructors, +, & and - from canonical SDDs is |0|, |1| or a node with at least one arc, whose valuations are non-empty and pairwise disjoint and whose successors are pairwise distinct and different from |0|.", "quantifier": "all reachable SDDs", "why_tests_cant": "Canonical form is an invariant over every history of operations.", "anchors": ["sdd/dd/definition.hh: create_node", "sdd/dd/square_union.hh", "sdd/dd/sum.hh", "sdd/dd/intersection.hh", "sdd/dd/difference.hh"]}
{"id": "C06", "title": "Boolean algebra laws hold as handle equalities", "statement": "Commutativity, associativity, idempotence, absorption, distributivity, neutral and absorbing elements and x - y = x - (x & y) hold as operator== on the returned handles for SDDs over the same order.", "quantifier": "all triples of canonical SDDs conforming to one order", "why_tests_cant": "A law is a claim on every triple of operands.", "anchors": ["sdd/dd/sum.hh", "sdd/dd/intersection.hh", "sdd/dd/difference.hh"]}
{"id": "C07", "title": "No Top for operands over the same order, and the result follows that order", "statement": "When all operands follow the same order (levels, variables and nesting), sum, intersection and difference never raise Top and their result follows that order.", "quantifier": "all orders, all operand collections conforming to it", "why_tests_cant": "Absence of an exception on all conforming inputs is a universal claim.", "anchors": ["sdd/dd/check_compatibility.hh", "sdd/dd/top.hh", "sdd/dd/nary.hh: nary_op::operator()", "sdd/order/order.hh"]}
{"id": "C08", "title": "Incompatible operands are rejected with Top, never silently combined", "statement": "sum, binary intersection and difference of two different non-|0| operands whose heads differ (terminal against node, flat against hierarchical, different variables) raise Top instead of returning an SDD.", "quantifier": "all pairs (all operand collections for sum) of canonical SDDs with different heads", "why_tests_cant": "Requires ruling out every path through the operation that returns a value.", "anchors": ["sdd/dd/check_compatibility.hh", "sdd/dd/nary.hh", "sdd/dd/difference.hh: difference_visitor", "sdd/dd/top.hh"]}
{"id": "C09", "title": "Whether Top is raised does not depend on internal addresses", "statement": "For a given collection of operands, an operation either raises Top or not independently of the memory addresses of its operands.", "quantifier": "all operand collections and all address assignments", "why_tests_cant": "Addresses are not controllable from a test. The n-ary intersection exits early on an empty intermediate result, so the answer depends on the order of operands.", "anchors": ["sdd/dd/intersection.hh: early exit in work", "sdd/dd/nary.hh: nary_builder (operands sorted by address)", "sdd/dd/sum.hh"]}
{"id": "C10", "title": "size() is the exact number of paths", "statement": "count_combinations (SDD::size) returns the cardinality of the set of value assignments contained in the SDD, without overflow, and 0 for |0|.", "quantifier": "all canonical SDDs over finite values", "why_tests_cant": "Counts grow exponentially; memoisation by node must never double count or skip.", "anchors": ["sdd/dd/count_combinations.hh: count_combinations_visitor", "sdd/dd/definition.hh: SDD::size"]}
{"id": "C11", "title": "paths() enumerates the set exactly and without overlap", "statement": "The sequences of value sets yielded by paths() are pairwise disjoint as products and their union is exactly the set of assignments of a non-empty SDD.", "quantifier": "all canonical non-|0| SDDs, any nesting", "why_tests_cant": "The explicit continuation stack for hierarchical nodes must be right for every nesting.", "anchors": ["sdd/dd/path_generator.hh: paths_visitor", "sdd/dd/sdd_stack.hh"]}
{"id": "C12", "title": "paths() of the empty SDD yields nothing", "statement": "Enumerating the paths of |0| yields no path.", "quantifier": "the |0| terminal", "why_tests_cant": "Stated as part of the enumeration contract: the number of yielded paths is 0 exactly when the SDD is empty.", "anchors": ["sdd/dd/path_generator.hh: operator()(zero_terminal)"]}
{"id": "C13", "title": "Results do not depend on addresses or hash-map iteration order", "statement": "The SDD returned by sum, intersection and difference is the same for every ordering of operands, of arcs and of the internal hash map.", "quantifier": "all operands, all iteration orders at every step of the recursion", "why_tests_cant": "Addresses and hash iteration orders vary between runs and cannot be enumerated by tests.", "anchors": ["sdd/dd/sum.hh: std::unordered_map res", "sdd/dd/definition.hh: operator<", "sdd/dd/nary.hh", "sdd/dd/square_union.hh"]}
{"id": "C14", "title": "Operation caches are transparent", "statement": "With any cache sizes and any previous history of operations (hits, evictions, exceptions, clears), sum, intersection and difference return the same SDD or raise the same exception as without caches.", "quantifier": "all histories of operations and all cache capacities", "why_tests_cant": "A cache bug shows up only for particular histories of insertions and evictions.", "anchors": ["sdd/mem/cache.hh: cache::operator()", "sdd/dd/context.hh", "sdd/mem/cache_entry.hh"]}
{"id": "C15", "title": "A cache never exceeds its capacity and never holds an operation twice", "statement": "After any sequence of lookups, the number of entries is at most the maximum size, each operation appears at most once, and each stored result is the result of evaluating the stored operation. This holds for the caches of operations on SDDs and for the cache of homomorphisms.", "quantifier": "all sequences of operations including exceptions and clears, all capacities at least one", "why_tests_cant": "Invariant over histories.", "anchors": ["sdd/mem/cache.hh", "sdd/mem/hash_table.hh: insert_check, insert_commit", "sdd/mem/lru_list.hh"]}
{"id": "C16", "title": "Evictions follow least-recently-used order", "statement": "When the cache is full the entry discarded is the one least recently inserted or hit.", "quantifier": "all histories, including clear()", "why_tests_cant": "Eviction order is only observable through long histories; clear() leaves stale positions behind.", "anchors": ["sdd/mem/cache.hh: operator(), clear", "sdd/mem/lru_list.hh"]}
{"id": "C17", "title": "Homomorphism application does not depend on previously cached applications", "statement": "h(o, x) returns the same SDD whatever was evaluated before with the same manager.", "quantifier": "all homomorphisms, orders, SDDs and histories", "why_tests_cant": "The cache key omits the order; only histories mixing orders can reveal the difference.", "anchors": ["sdd/hom/evaluation.hh: cached_homomorphism::operator==", "sdd/hom/context.hh", "sdd/mem/cache.hh"]}
{"id": "C18", "title": "The unique table keeps one live copy of each node", "statement": "Unifying equal data returns the same object, unifying different data returns different objects, for any hash function and any history of insertions, deletions and rehashes.", "quantifier": "all histories of unify and delete, all hash functions", "why_tests_cant": "Collisions and rehash points depend on the hash and the history.", "anchors": ["sdd/mem/unique_table.hh: operator(), erase", "sdd/mem/hash_table.hh", "sdd/mem/unique.hh"]}
{"id": "C19", "title": "Reference counting never frees a live node and frees every dead one", "statement": "Over any sequence of handle creation, copy, move, assignment and destruction, a node is in memory exactly while it is reachable from a live handle; no freed node is ever accessed.", "quantifier": "all histories of handle operations", "why_tests_cant": "Use-after-free and leaks are history properties.", "anchors": ["sdd/mem/ptr.hh", "sdd/mem/unique.hh", "sdd/mem/unique_table.hh", "sdd/internal_manager.hh: ptr_handlers"]}
{"id": "C20", "title": "Self-assignment of a handle is harmless", "statement": "Assigning a handle to itself (x = x) leaves the handle and the node unchanged.", "quantifier": "all heap states and handles", "why_tests_cant": "With other references alive the defect is invisible; it appears only for the last reference.", "anchors": ["sdd/mem/ptr.hh: operator=(const ptr&), operator=(ptr&&)"]}
{"id": "C21", "title": "The intrusive hash table behaves as a set", "statement": "insert, erase, the two-phase insert_check/insert_commit and rehash implement a finite set of elements up to equality, for any hash function; size() is its cardinality; collisions() counts the buckets with several, one and no element; the load factor stays below its maximum after insert. Every loop over the data linked in a bucket ends, only living data are accessed, and no datum is lost, as long as data are not inserted while they are in the table nor destroyed before they are erased.", "quantifier": "all sequences of operations (including the creation, the destruction and the reuse of the memory of data) and all hash functions", "why_tests_cant": "Bucket collisions, rehash timing; a wrong link is only seen when the datum is looked for again.", "anchors": ["sdd/mem/hash_table.hh"]}
{"id": "C22", "title": "next_power_of_2 returns the smallest power of two not below its argument", "statement": "For 1 <= x <= 2^63 (2^31 for 32 bits), next_power_of_2(x) is the smallest power of two >= x; it is 0 for 0 and beyond the range.", "quantifier": "all 64-bit and all 32-bit arguments", "why_tests_cant": "2^64 inputs.", "anchors": ["sdd/util/next_power.hh: next_power_of_2"]}
{"id": "C23", "title": "The arena never hands out overlapping memory", "statement": "Blocks allocated and not yet released or rewound are pairwise disjoint and inside the buffer (or come from the system allocator); a rewinder restores the position it saw.", "quantifier": "all sequences of allocate, deallocate and nested rewinders", "why_tests_cant": "Overlap needs a particular interleaving of deallocations and rewinds.", "anchors": ["sdd/mem/linear_alloc.hh: arena, rewinder"]}
{"id": "C24", "title": "flat_set values behave as finite sets with unique representation", "statement": "sum, intersection, difference, insert, erase, size and empty of flat_set agree with finite sets, and two flat_sets are equal if and only if they have the same elements.", "quantifier": "all flat_sets", "why_tests_cant": "Set laws range over all sets.", "anchors": ["sdd/values/flat_set.hh"]}
{"id": "C25", "title": "bitset values behave as subsets of {0..Size-1}", "statement": "sum, intersection, difference, insert, size, empty and test of bitset<Size> agree with finite subsets of {0..Size-1}, equality is set equality; insert outside the range is rejected.", "quantifier": "all sizes and all bitsets", "why_tests_cant": "2^Size sets.", "anchors": ["sdd/values/bitset.hh"]}
{"id": "C26", "title": "Ordering of bitset values is usable for every Size", "statement": "operator< on bitset<Size> is a strict total order compatible with operator== for every Size.", "quantifier": "all sizes, all pairs of bitsets", "why_tests_cant": "Depends on bits beyond the width of unsigned long.", "anchors": ["sdd/values/bitset.hh: operator<, hash"]}
{"id": "C27", "title": "Order construction numbers levels consistently", "statement": "In an order built from a builder, positions are the pre-order ranks, the variable of a node is the number of nodes following it at its level, the path of a node lists the positions of its enclosing hierarchies from the outside in, and next()/nested() mirror the builder.", "quantifier": "all order builders without duplicate user identifiers", "why_tests_cant": "All tree shapes.", "anchors": ["sdd/order/order.hh: mk_nodes_ptr, contains, next, nested", "sdd/order/order_node.hh"]}
{"id": "C28", "title": "Duplicate identifiers are rejected and look-ups are exact", "statement": "Building an order raises duplicate_identifier_error exactly when a user identifier occurs twice; otherwise node(id) finds the unique node of that identifier and raises identifier_not_found_error exactly for absent identifiers.", "quantifier": "all order builders and identifiers", "why_tests_cant": "All tree shapes and duplicate positions.", "anchors": ["sdd/order/order.hh: mk_nodes_ptr, mk_identifier_to_node, node", "sdd/order/order_error.hh"]}
{"id": "C29", "title": "order_builder concatenation, size and height", "statement": "operator<< appends the levels of its argument after those of the receiver, is associative with the empty builder as neutral element; size() counts all identifiers and height() those of the current level.", "quantifier": "all builders", "why_tests_cant": "All shapes.", "anchors": ["sdd/order/order_builder.hh: operator<<, concat, size, height, push"]}
{"id": "C30", "title": "flatten removes the hierarchy and keeps the identifiers in order", "statement": "flatten(ob) has no nested level and its identifiers are the flat identifiers of ob from top to bottom; flattening is idempotent.", "quantifier": "all order builders", "why_tests_cant": "All nestings.", "anchors": ["sdd/order/strategies/flatten.hh"]}
{"id": "C31", "title": "identifiers_per_hierarchy bounds every created level and keeps identifiers in order", "statement": "For nb >= 2 the strategy terminates, the top level and every created level have at most nb identifiers, and the flat identifiers are unchanged and in the same order.", "quantifier": "all order builders and all nb", "why_tests_cant": "Termination and order preservation for every size.", "anchors": ["sdd/order/strategies/identifiers_per_hierarchy.hh"]}
{"id": "C32", "title": "FORCE returns a permutation of the identifiers", "statement": "The order proposed by the FORCE strategy contains every vertex identifier exactly once, whatever the hyperedges, weights, floating-point rounding and number of iterations; asking for the reverse order gives exactly the reverse of the order given otherwise. The hypergraph it works on, and its DOT export, are made of exactly the given identifiers and of the given hyperedges which are not empty, in their order; adding a hyperedge with an unknown identifier is refused and nothing else is.", "quantifier": "all hypergraphs and iteration counts", "why_tests_cant": "All graphs; rounding behaviour.", "anchors": ["sdd/order/strategies/force.hh: worker::operator()", "sdd/order/strategies/force_hypergraph.hh", "sdd/tools/dot/force_hypergraph.hh"]}
{"id": "C33", "title": "FORCE keeps the order with the smallest span", "statement": "The returned order has the smallest total span among the orders computed by the iterations.", "quantifier": "all hypergraphs and iteration counts", "why_tests_cant": "Needs a run in which a later iteration is worse.", "anchors": ["sdd/order/strategies/force.hh: smallest_span, best_order"]}
{"id": "C34", "title": "Dumping then loading an order keeps its structure", "statement": "load_order(dump_order(o)) equals o for every order: same identifiers, same order, same nesting.", "quantifier": "all orders", "why_tests_cant": "All nestings; degenerate levels.", "anchors": ["sdd/tools/order.hh: load_order_impl, load_order, dump_order"]}
{"id": "C35", "title": "Homomorphism evaluation is the image of a path relation", "statement": "For homomorphisms whose user functions are additive, h(o, x) contains exactly the paths obtained by applying h to each path of x separately.", "quantifier": "all homomorphisms (without non-selector intersections and non-reflexive fixpoints), orders and SDDs on which evaluation terminates", "why_tests_cant": "Additivity is what makes evaluation on shared nodes legal; it is universal over diagrams.", "anchors": ["sdd/hom/definition.hh: operator()", "sdd/hom/evaluation.hh", "sdd/hom/*.hh: operator()"]}
{"id": "C36", "title": "composition(a, b) applies b then a", "statement": "composition(a, b)(o, x) == a(o, b(o, x)) in spite of the regrouping of locals done at construction.", "quantifier": "all pairs of additive homomorphisms and all SDDs", "why_tests_cant": "The builder rewrites four combinations of shapes.", "anchors": ["sdd/hom/composition.hh: composition_builder, _composition"]}
{"id": "C37", "title": "sum of homomorphisms is the union of their results", "statement": "sum(o, hs)(o, x) equals the sum of h(o, x) for h in hs, in spite of flattening, deduplication and regrouping of locals.", "quantifier": "all lists of homomorphisms and SDDs", "why_tests_cant": "Regrouping acts on arbitrary nestings of sums and locals.", "anchors": ["sdd/hom/sum.hh: sum_builder, sum, _sum"]}
{"id": "C38", "title": "intersection of homomorphisms is the intersection of their results", "statement": "intersection(o, hs)(o, x) equals the intersection of h(o, x) for h in hs.", "quantifier": "all lists of homomorphisms and SDDs", "why_tests_cant": "Regrouping of locals is only valid for selectors; a counterexample needs overlapping successors.", "anchors": ["sdd/hom/intersection.hh: intersection_builder, intersection"]}
{"id": "C39", "title": "if_then_else obeys its documented equation", "statement": "if_then_else(p, t, e)(x) == t(p(x)) + e(x - p(x)); a non-selector predicate is rejected.", "quantifier": "all selector predicates, all branches (additive ones when both are the same homomorphism; C105 is about the others), all SDDs", "why_tests_cant": "Construction-time simplifications must preserve it.", "anchors": ["sdd/hom/if_then_else.hh"]}
{"id": "C40", "title": "fixpoint returns a fixpoint, the least one above its argument for reflexive homomorphisms", "statement": "If fixpoint(h)(x) terminates with r then h(r) == r and r is an iterate of h on x; if h contains Id and is additive, r is the least set containing x and closed under h.", "quantifier": "all homomorphisms and SDDs", "why_tests_cant": "Minimality quantifies over all closed sets.", "anchors": ["sdd/hom/fixpoint.hh"]}
{"id": "C41", "title": "rewrite preserves the meaning of homomorphisms", "statement": "rewrite(o, h)(x) == h(x) for every SDD x of order o (when both terminate).", "quantifier": "all additive homomorphisms, orders, SDDs", "why_tests_cant": "Saturation reorders applications across levels; equivalence is a closure argument.", "anchors": ["sdd/hom/rewrite.hh", "sdd/hom/saturation_sum.hh", "sdd/hom/saturation_fixpoint.hh", "sdd/hom/saturation_intersection.hh"]}
{"id": "C42", "title": "Selectors only remove paths", "statement": "If selector() is true for h (user functions being honest) then every path of h(o, x) is a path of x.", "quantifier": "all homomorphisms and SDDs", "why_tests_cant": "Selector is trusted by local to keep the partition; it must be sound for every composite.", "anchors": ["sdd/hom/*.hh: selector()", "sdd/hom/local.hh"]}
{"id": "C43", "title": "Skipped levels are left unchanged", "statement": "If a homomorphism skips the head variable then applying it changes only what is below: the values of the head level of every resulting path come unchanged from a path of x.", "quantifier": "all homomorphisms, orders and SDDs", "why_tests_cant": "The automatic forwarding to successors is used for every homomorphism.", "anchors": ["sdd/hom/evaluation.hh: evaluation::operator()", "sdd/hom/*.hh: skip"]}
{"id": "C44", "title": "function() acts exactly on its target identifier", "statement": "function(o, id, f) transforms the value of the level of id with f, at any nesting depth, and leaves every other level unchanged. local(id, o, h) exists exactly when id is in o and, for a hierarchical level at the top of the order, is the homomorphism which applies h to the nested SDD of this level only, whatever the identifier used to designate a level inside.", "quantifier": "all orders, identifiers, user functions and SDDs", "why_tests_cant": "All positions and nestings.", "anchors": ["sdd/hom/function.hh", "sdd/order/carrier.hh", "sdd/hom/local.hh"]}
{"id": "C45", "title": "SDD built from an order and an initializer is the Cartesian product", "statement": "SDD(o, init) contains exactly the assignments giving to each flat identifier a value of init(identifier), and follows the order o.", "quantifier": "all orders and initializers", "why_tests_cant": "All nestings.", "anchors": ["sdd/dd/definition.hh: SDD(order, init)"]}
{"id": "C46", "title": "Homomorphism constructors are insensitive to order and repetition of operands", "statement": "sum(o, ...) and intersection(o, ...) return the same handle for any permutation or repetition of the same operands.", "quantifier": "all operand lists", "why_tests_cant": "Operand order is given by addresses.", "anchors": ["sdd/hom/sum.hh", "sdd/hom/intersection.hh"]}
{"id": "C47", "title": "A node keeps all the arcs it was built with", "statement": "A node built from a builder with n arcs has n arcs.", "quantifier": "all builders, any number of arcs", "why_tests_cant": "Needs more than 65535 arcs with the default configuration.", "anchors": ["sdd/dd/node.hh: node(variable, builder), size_", "sdd/conf/default_configurations.hh: alpha_size_type"]}
{"id": "C48", "title": "At most one manager per values type can be initialised", "statement": "init throws when the library is already initialised for this configuration or for its values type; destroying the manager allows a new initialisation.", "quantifier": "all sequences of init and destruction over any set of configurations", "why_tests_cant": "Needs two configurations sharing their Values type.", "anchors": ["sdd/manager.hh: init, manager_impl::~manager_impl", "sdd/values_manager.hh: global_values_ptr"]}
{"id": "C49", "title": "Node statistics count each distinct node once", "statement": "tools::nodes(x) returns the numbers of distinct flat and hierarchical nodes reachable from x, and the arc frequency map sums to the same numbers of nodes and to the total number of their arcs.", "quantifier": "all SDDs", "why_tests_cant": "Sharing makes naive counting exponential; visited set must be right.", "anchors": ["sdd/tools/nodes.hh", "sdd/tools/arcs.hh"]}
{"id": "C50", "title": "Equal keys have equal hashes", "statement": "If two values are equal for operator== then std::hash gives the same result for them. For bitsets it is defined for all of them exactly up to 64 bits.", "quantifier": "all nodes, operations, orders and homomorphisms", "why_tests_cant": "Equality of orders is structural while their hash uses addresses.", "anchors": ["sdd/order/order.hh: operator==, hash<order>", "sdd/hom/cons.hh", "sdd/dd/nary.hh", "sdd/dd/node.hh"]}
{"id": "C51", "title": "Fixpoints over a finite space terminate", "statement": "fixpoint(h)(x) terminates for a reflexive additive h when the result stays in a finite set of paths (for instance the assignments of an order with finite values).", "quantifier": "all such homomorphisms, orders and SDDs", "why_tests_cant": "Termination is not testable.", "anchors": ["sdd/hom/fixpoint.hh", "sdd/hom/saturation_fixpoint.hh"]}
{"id": "C52", "title": "An exception during an operation leaves the caches valid", "statement": "When Top is raised in the middle of a nested operation, every entry remaining in the caches is still correct and later operations return correct results.", "quantifier": "all operations, all raise points, all histories", "why_tests_cant": "Requires interrupting at every point of every recursion.", "anchors": ["sdd/mem/cache.hh: operator()", "sdd/dd/top.hh"]}
{"id": "C53", "title": "The homomorphism cache needs no order in its key for order-insensitive homomorphisms", "statement": "For homomorphisms without user-defined inductive parts, evaluation gives the same result under any two orders the operand conforms to.", "quantifier": "all such homomorphisms, pairs of orders and SDDs", "why_tests_cant": "It is the argument given in a comment to justify the key.", "anchors": ["sdd/hom/evaluation.hh: hash<cached_homomorphism>"]}
{"id": "C54", "title": "The text of a set of values denotes the set", "statement": "operator<< on a flat_set of integers writes values and ranges a..b of consecutive values which together are exactly the elements, so two different sets never have the same text; on other value types and on bitset it lists exactly the elements. Also when the text is followed by other characters: it can be read back.", "quantifier": "all flat_sets and bitsets", "why_tests_cant": "Range abbreviation depends on the arrangement of gaps; tests show a few texts.", "anchors": ["sdd/values/flat_set.hh: operator<<", "sdd/values/bitset.hh: operator<<"]}
{"id": "C55", "title": "A cache is a memory-safe bounded map, even after clear()", "statement": "After any history of lookups, stores and clear(), the next call never touches an entry that no longer exists; the cache holds at most 85% of its bucket count and no operation twice; a lookup finds exactly the last result stored since the last clear() and not discarded since; an entry is discarded only when the cache is full. A cache can be constructed exactly for sizes 2 to 2^63.", "quantifier": "all hash functions, all sizes, all histories including nested evaluations and clear()", "why_tests_cant": "clear() leaves stale positions in the list of uses; whether they are ever dereferenced depends on the history.", "anchors": ["sdd/mem/cache.hh: cache, operator(), clear, pool", "sdd/mem/cache_entry.hh", "sdd/mem/hash_table.hh: insert_check, insert_commit"]}
{"id": "C56", "title": "Equality of orders is structural", "statement": "Two orders compare equal exactly when they were built from builders with the same identifiers at the same places and the same nesting, whatever the storage of their nodes.", "quantifier": "all pairs of orders", "why_tests_cant": "All pairs of tree shapes.", "anchors": ["sdd/order/order.hh: operator=="]}
{"id": "C57", "title": "Homomorphisms without fixpoints always return", "statement": "Applying a homomorphism which contains no fixpoint (nor builds one in its inductives) to an SDD of the order terminates with a result, whatever was evaluated before.", "quantifier": "every homomorphism without fixpoint usable under the order, every operand, every history of the manager", "why_tests_cant": "termination has to hold for every homomorphism and every nesting; a test only shows some terminating runs", "anchors": ["sdd/hom/evaluation.hh: evaluation", "sdd/hom/local.hh", "sdd/hom/composition.hh", "sdd/hom/sum.hh", "sdd/hom/context.hh"]}
{"id": "C58", "title": "Statistics of unique tables and caches are exact", "statement": "After any program, the statistics of a unique table tell exactly how many unifications were asked, how many found an existing datum, how many data are in memory and were at most, and describe all buckets once with a load below 3/4; those of a cache tell exactly the hits, misses, filtered and discarded operations and the entries left.", "quantifier": "every program on handles and every history of a cache, every hash function, every initial size", "why_tests_cant": "counters are updated on many paths (hit, miss, filter, eviction, rehash, release); a test only looks at some histories", "anchors": ["sdd/mem/unique_table.hh: unique_table_statistics, statistics", "sdd/mem/cache.hh: cache_statistics, statistics", "sdd/mem/hash_table.hh: collisions, load_factor, nb_rehash"]}
{"id": "C59", "title": "The memory usage of an SDD counts each datum once", "statement": "tools::size returns the sum of the sizes of the different nodes and terminals below an SDD, each counted once whatever the number of arcs which lead to it.", "quantifier": "every SDD, flat or hierarchical, every size of the types", "why_tests_cant": "sharing is arbitrary; a double or a missed count only shows on some shapes", "anchors": ["sdd/tools/size.hh: size_visitor, size"]}
{"id": "C60", "title": "The DOT export is the graph of the SDD", "statement": "Exporting an SDD with its order gives exactly one vertex per different SDD below it and one edge per arc with its values (hierarchical arcs through an intermediate vertex); vertices are labelled with the identifier of a level where the node occurs; names of vertices do not clash.", "quantifier": "every order, every SDD of this order, every placement in memory", "why_tests_cant": "depends on the sharing and on the addresses, which change from run to run", "anchors": ["sdd/tools/dot/sdd.hh: to_dot_visitor, dot"]}
{"id": "C61", "title": "Visits dispatch on the actual types", "statement": "Visiting one or two SDDs (or homomorphisms) calls the handler of the types with which they were built, with the data they were built with; two of them are equal only if they have the same type; the type test tells the type used at construction.", "quantifier": "every list of types which compiles, every pair of types of these lists, every visitor", "why_tests_cant": "tests only exercise the pairs of types they think of; the index computed in the table must be right for all", "anchors": ["sdd/mem/variant.hh: variant, is, visit, binary_visit", "sdd/mem/variant_impl.hh: apply_visitor, apply_binary_visitor, binary_jump_table", "sdd/util/typelist.hh: index_of, join, cat, mul"]}
{"id": "C62", "title": "Over finitely many values, additive homomorphisms always return", "statement": "When the type of values has finitely many elements, applying an additive homomorphism (identity, constants, additive functions and inductives, local, composition, sum, intersection of selectors, fixpoints of sums with the identity, if_then_else, and their rewritings) to an SDD of the order returns, whatever the history; h and rewrite(o, h) both return, and return the same SDD.", "quantifier": "every additive homomorphism, every order, every SDD of this order, every history of the library", "why_tests_cant": "termination of fixpoints and saturations cannot be observed by running them; the orders and homomorphisms are unbounded", "anchors": ["sdd/hom/fixpoint.hh: _fixpoint::operator()", "sdd/hom/saturation_fixpoint.hh: _saturation_fixpoint::operator()", "sdd/hom/rewrite.hh: rewrite", "sdd/values/bitset.hh: bitset"]}
{"id": "C63", "title": "The towers of Hanoi program computes the states of the game", "statement": "For every number of rings and poles, the program of examples/hanoi builds its order and initial state, its rewritten fixpoint returns, the paths of the result are exactly the arrangements of the rings reachable by the moves of the game from the initial one, and with at least three poles the number it prints is poles^rings.", "quantifier": "every number of rings, every number of poles representable as a value, every history of the library, every placement of SDDs and homomorphisms in memory", "why_tests_cant": "each run checks one size and one placement in memory; the moves, skipped levels, saturation and caches interact", "anchors": ["examples/hanoi/hanoi.cc: no_ring_above, swap_pole, main", "sdd/hom/inductive.hh", "sdd/hom/rewrite.hh", "sdd/hom/saturation_fixpoint.hh"]}
{"id": "C64", "title": "The dictionary program stores exactly the words read", "statement": "For every file, the program of examples/dictionary builds its order and adds each line without exception; at each point the paths of the dictionary are exactly the words read so far, completed with '#' to the length of the longest one, and its size is the number of different completed words (of different words when none contains '#').", "quantifier": "every file, every set of characters, every history of the library between two lines, every placement in memory", "why_tests_cant": "depends on all the words, on the sharing they induce and on the state of the caches", "anchors": ["examples/dictionary/dictionary.cc: main", "sdd/dd/definition.hh: SDD(order, init), operator+=, size", "sdd/dd/sum.hh"]}
{"id": "C65", "title": "The DOT export of a homomorphism is its graph", "statement": "tools::dot(h) writes exactly one vertex for each different homomorphism occurring in h, labelled with its kind, and one edge for each operand labelled with its role; names of vertices are different, every edge joins declared vertices, and exports of several homomorphisms never reuse the number of an identity.", "quantifier": "every homomorphism, however nested and shared, every sequence of exports, every placement in memory", "why_tests_cant": "terms are unbounded and sharing is arbitrary", "anchors": ["sdd/tools/dot/homomorphism.hh: hom_to_dot_visitor, dot"]}
{"id": "C66", "title": "The JSON export of a homomorphism describes it", "statement": "tools::js(h) and tools::js(h') are different documents when h and h' are different homomorphisms (and the texts of different user functions are different).", "quantifier": "every two homomorphisms", "why_tests_cant": "injectivity over an infinite domain", "anchors": ["sdd/tools/js.hh: hom_to_json_visitor, js", "sdd/hom/function.hh: operator<<"]}
{"id": "C67", "title": "Destroying the manager releases everything safely", "statement": "When the last handle of the user is gone and the manager is destroyed, every SDD, homomorphism and set of values still held by its caches and constants is deleted through a unique table and a deletion handler which still exist, no pointer is used after the object it designates was freed, and all memory is given back.", "quantifier": "every program on handles ended by the destruction of the manager, every content of the caches, every hash function, every placement in memory", "why_tests_cant": "what the caches hold, and the cascades of deletions it causes, depend on the whole history", "anchors": ["sdd/internal_manager.hh: internal_manager, ptr_handlers", "sdd/manager.hh: manager_impl, ~manager_impl", "sdd/values/flat_set.hh: flat_set_manager", "sdd/mem/ptr.hh: reset_deletion_handler"]}
{"id": "C68", "title": "Exceptions thrown by the code of the user leave the library usable", "statement": "When a function, an inductive homomorphism or an operation on values supplied by the user throws while an operation on SDDs or an application of a homomorphism is being evaluated, at any depth of nested evaluations, the call raises this exception (or returns the right result if the exception never happened), the handles held before are unchanged, and every later operation and application gives the same right results as if the interrupted call had not been made.", "quantifier": "every operation and homomorphism, every operand, every point of the evaluation at which the exception is thrown, every history before and after", "why_tests_cant": "the point of the exception ranges over all the steps of evaluations of any depth, and a wrong entry left in a cache is seen only by some later calls", "anchors": ["sdd/mem/cache.hh: cache::operator()", "sdd/hom/evaluation.hh: evaluation", "sdd/hom/function.hh: evaluation", "sdd/hom/inductive.hh: evaluation", "sdd/dd/context.hh"]}
{"id": "C69", "title": "Top is raised exactly when two paths of the operands are incompatible", "statement": "Sum (of any number of operands), binary intersection and difference of SDDs obtained through the library raise Top if and only if the operands contain two paths which, read together, have levels of different kinds or variables although they carry the same elements before; n-ary intersections raise Top only in this case, and always do when a path of an operand is incompatible with a path common to all the others; and the paths of one SDD obtained through the library are always compatible with each other; the two SDDs carried by the exception are not |0|, have different heads, and can be used in further operations like any other SDD.", "quantifier": "all SDDs obtained by any history of calls, at any depth of incompatibility, with any addresses, iteration orders and contents of caches", "why_tests_cant": "the characterisation ranges over all pairs of paths of all SDDs; a cache could hide an incompatibility seen by an earlier call, or an early exit could skip it", "anchors": ["sdd/dd/check_compatibility.hh", "sdd/dd/sum.hh", "sdd/dd/intersection.hh", "sdd/dd/difference.hh", "sdd/dd/square_union.hh", "sdd/dd/top.hh"]}
{"id": "C70", "title": "The text of an SDD identifies it", "statement": "operator<< is defined on every SDD obtained through the library, and two SDDs have the same text if and only if they are the same set, also when the texts are followed by other characters; the description what() of a Top exception determines the two SDDs it carries.", "quantifier": "all SDDs obtained by any history of calls, all value types whose own texts start with a brace and can be read back (flat_set of integers, bitset)", "why_tests_cant": "injectivity ranges over all pairs of SDDs; tests only compare a few texts", "anchors": ["sdd/dd/definition.hh: operator<<", "sdd/dd/node.hh: operator<<", "sdd/dd/alpha.hh: operator<<", "sdd/dd/top.hh: description"]}
{"id": "C71", "title": "The text of an order identifies it", "statement": "operator<< is defined on every order, and two orders have the same text if and only if they are equal, for identifiers whose texts are distinct, on one line, not empty and do not start with a space or '@'; the description of an order error tells its kind and its identifier.", "quantifier": "all orders of any nesting, all types of identifiers", "why_tests_cant": "injectivity ranges over all pairs of orders; nesting is only shown by indentation", "anchors": ["sdd/order/order.hh: operator<<", "sdd/order/order_identifier.hh: operator<<", "sdd/order/order_error.hh: description"]}
{"id": "C72", "title": "Data and what is stored behind them fit in their memory and are aligned", "statement": "The arcs of a node and the operands of a homomorphism, which are stored behind the datum in the same block of memory, overlap neither the header, the datum nor each other, stay inside of the block asked for them, and are at addresses suitable for their type, for every configuration of the types of variables and sizes; temporary containers of pointers get suitable addresses after any history of the arena; with LIBSDD_PACKED, blocks are still large enough and their parts do not overlap.", "quantifier": "all variants of types, all numbers of arcs and operands, all configurations of the types of variables and sizes, all histories of the arena", "why_tests_cant": "misaligned accesses are silent on usual processors, and the layout depends on the types of the configuration", "anchors": ["sdd/mem/unique.hh", "sdd/mem/variant.hh", "sdd/mem/variant_impl.hh", "sdd/dd/node.hh: alpha_addr", "sdd/dd/alpha.hh: consolidate", "sdd/hom/sum.hh: operands_addr", "sdd/hom/saturation_fixpoint.hh: G_operands_addr", "sdd/hom/consolidate.hh", "sdd/util/packed.hh: LIBSDD_ATTRIBUTE_PACKED"]}
{"id": "C73", "title": "The text of a homomorphism identifies it", "statement": "operator<< is defined on every homomorphism the library builds (with operands and non-empty orders); two homomorphisms with the same text differ at most by the grouping of their compositions, hence can be applied to the same SDDs and return the same SDD; grouping of compositions changes neither the text nor the results.", "quantifier": "all homomorphisms of any depth, all types of values, identifiers and user's functions whose texts are distinct and delimited, all orders and SDDs", "why_tests_cant": "injectivity ranges over all pairs of homomorphisms; compositions and some saturations are written without delimiters, so the text of a part depends on what surrounds it", "anchors": ["sdd/hom/definition.hh: operator<<", "sdd/hom/composition.hh: operator<<", "sdd/hom/cons.hh: operator<<", "sdd/hom/saturation_fixpoint.hh: operator<<", "sdd/hom/saturation_sum.hh: operator<<", "sdd/hom/saturation_intersection.hh: operator<<", "sdd/hom/function.hh: print", "sdd/hom/inductive.hh: print"]}
{"id": "C74", "title": "Equality of homomorphisms is equality of their construction", "statement": "Two handles of homomorphisms are equal exactly when they have been built in the same way: same constructor, equal operands (as stored after simplification and sorting), equal SDDs and values, equal user's objects, copies of the same orders. A handle keeps everything its homomorphism is made of in memory, and no statement of the program changes the homomorphism it holds.", "quantifier": "all sequences of creations, copies, moves, assignments and destructions of handles, all hash functions (with any collisions), all homomorphisms of any depth", "why_tests_cant": "Equality compares addresses: it is right only if no history of unifications, deletions and reuses of memory ever leaves two copies of a datum or reuses an address still referenced.", "anchors": ["sdd/hom/definition.hh: operator==, make", "sdd/mem/unique_table.hh", "sdd/mem/ptr.hh", "sdd/hom/composition.hh: operator==", "sdd/hom/sum.hh: operator==", "sdd/hom/saturation_fixpoint.hh: operator=="]}
{"id": "C75", "title": "A homomorphism is applied with all its operands", "statement": "The application of a sum (or of a saturation made by rewrite()) takes all the operands given at its construction into account, however many they are.", "quantifier": "all numbers of operands, all widths of operands_size_type, all homomorphisms", "why_tests_cant": "Needs as many operands as the number of values of operands_size_type (2^32 in the default configuration).", "anchors": ["sdd/hom/sum.hh: _sum, size", "sdd/hom/saturation_fixpoint.hh: G_size", "sdd/conf/default_configurations.hh: operands_size_type"]}
{"id": "C76", "title": "Cost of operations", "statement": "When the operation caches are large enough, no operation is evaluated twice by a sequence of calls; a call done again evaluates nothing. On SDDs without hierarchy, a union evaluates at most as many operations as the product of the numbers of nodes of the operands plus one, intersections and differences of two SDDs at most the product of their numbers of nodes; the numbers of nodes of the results have the same bounds.", "quantifier": "all SDDs without hierarchy, all numbers of operands of a union, all sequences of calls, all initial contents and sizes of the caches", "why_tests_cant": "An exponential blow-up or a useless evaluation does not change any result; bounds hold for all sizes or say nothing.", "anchors": ["sdd/mem/cache.hh: operator()", "sdd/dd/sum.hh: work", "sdd/dd/intersection.hh", "sdd/dd/difference.hh"]}
{"id": "C77", "title": "The JSON text of an order can be read back, and errors are reported", "statement": "load_order applied to the text written by dump_order gives an order with the same flat identifiers in the same order (and the same nesting when every level has two elements), whatever the identifiers; loading a text where an integer is expected and something else is found throws std::runtime_error.", "quantifier": "all orders, all identifiers (integers of any size, strings of any characters), all texts", "why_tests_cant": "Identifiers are arbitrary strings and integers; the text must be read back for each of them, at any depth of nesting, and there is no test of these functions.", "anchors": ["sdd/tools/order.hh: dump_order, load_order, load_order_impl, mk_order_identifier, print_identifier"]}
{"id": "C78", "title": "Parts of a diagram can be kept and assigned", "statement": "A handle constructed from a valuation or a successor read in the diagram of a handle, or to which one of them is assigned, then holds this part, and all other handles keep their values; this also holds when the part is assigned to the handle whose diagram is read.", "quantifier": "every state reached by a program on handles, every pair of handles, every part", "why_tests_cant": "The hazard depends on which other references to the same data exist at this point of the program.", "anchors": ["sdd/mem/ptr.hh: operator=", "sdd/dd/alpha.hh: arc::valuation, arc::successor"]}
{"id": "C79", "title": "A datum is kept as long as it is designated, however many times it is", "statement": "A diagram, a homomorphism or a set of values stays in memory as long as a handle or another datum designates it, whatever the number of handles and of data which designate it, and it is destroyed when there are none.", "quantifier": "every program on handles, every number of handles and of pointers to a same datum, every hash function", "why_tests_cant": "The limit is only reached with 2^32 references to a same datum, e.g. the terminal |1| at the end of the arcs of many nodes.", "anchors": ["sdd/mem/unique.hh: ref_count_, increment_reference_counter, decrement_reference_counter", "sdd/mem/ptr.hh: ptr"]}
{"id": "C80", "title": "An operation on SDDs takes all its operands into account", "statement": "The sum and the intersection of a range of SDDs take all the given SDDs into account, however many they are: the result is the same as if the number of operands were stored without bound.", "quantifier": "all ranges of SDDs, all widths of operands_size_type, all states of the caches", "why_tests_cant": "Needs as many operands as the number of values of operands_size_type (2^32 in the default configuration); nested operations may have other numbers of operands than the one asked by the user.", "anchors": ["sdd/dd/nary.hh: nary_op, size, begin, end, operator==", "sdd/dd/sum.hh: sum_op_impl::work", "sdd/dd/intersection.hh: intersection_op_impl::work", "sdd/conf/default_configurations.hh: operands_size_type"]}
{"id": "C81", "title": "A failed allocation leaves the library usable", "statement": "When the system refuses memory to an operation, which then throws std::bad_alloc, the following operations are still defined and give right results: the unique tables still contain each datum once, and the caches still answer with the results stored and can still store others.", "quantifier": "all histories of a cache or of a unique table, with any allocation of an element of the list of uses or of an array of buckets failing", "why_tests_cant": "Allocations fail at arbitrary points of arbitrary histories; the harm appears only when the cache becomes full, long after the failure.", "anchors": ["sdd/mem/cache.hh: cache::operator(), pool::allocate", "sdd/mem/hash_table.hh: insert, rehash", "sdd/mem/unique_table.hh: operator()"]}
{"id": "C82", "title": "Counting the paths of any SDD and exporting it are defined", "statement": "size() of an SDD has a defined behaviour for every SDD and every conforming implementation of the standard containers, and gives the number of its paths; so has its DOT export.", "quantifier": "all SDDs built by any session, all numbers of buckets chosen by the implementation of std::unordered_map", "why_tests_cant": "The iterators kept by the code are invalidated only for SDDs with more nodes than buckets, and usual implementations hide it; tests run one implementation.", "anchors": ["sdd/dd/count_combinations.hh: count_combinations_visitor, cache_", "sdd/dd/definition.hh: SDD::size", "sdd/tools/dot/sdd.hh: to_dot_visitor, visited_"]}
{"id": "C83", "title": "Homomorphisms are evaluated once", "statement": "As long as the cache of homomorphisms is large enough for the different applications done, no application of a homomorphism to an SDD is evaluated twice, even by the iterations of fixpoints, by nested homomorphisms or by later applications; whatever the size of the cache, an application done again immediately evaluates nothing. What is evaluated is not observed by the results.", "quantifier": "all homomorphisms, SDDs, orders and sequences of applications, all states of the caches reached by a session, all capacities", "why_tests_cant": "The number of evaluations depends on the whole history of the cache and on the sharing between homomorphisms; a lost entry only makes the library slow, exponentially, on some inputs.", "anchors": ["sdd/hom/evaluation.hh: cached_homomorphism", "sdd/hom/definition.hh: homomorphism::operator()", "sdd/mem/cache.hh: cache::operator()", "sdd/hom/context.hh"]}
{"id": "C84", "title": "Saved statistics are what their names announce", "statement": "In the statistics of an SDD or of a manager given to an archive, the value under each name is the quantity this name announces (distinct flat and hierarchical nodes, their arcs and their frequencies, bytes; accesses, hits, misses, filtered and discarded operations, entries, buckets by number of entries, load), for the table or the cache named, and no name appears twice at the same place.", "quantifier": "all SDDs, all histories of unique tables and of caches, all hash functions", "why_tests_cant": "A wrong or swapped counter is only seen on histories where the counters differ.", "anchors": ["sdd/tools/serialization.hh: save", "sdd/tools/sdd_statistics.hh: sdd_statistics", "sdd/tools/manager_statistics.hh: manager_statistics", "sdd/manager.hh: sdd_stats, hom_stats, sdd_sum_cache_stats, hom_cache_stats"]}
{"id": "C85", "title": "Iterators of flat_set stay valid", "statement": "An iterator of a flat_set given by begin (moved or not), find, lower_bound or insert can be dereferenced as long as some flat_set with the same elements exists, and gives the element it was obtained for, whatever is done with other sets or with other handles meanwhile.", "quantifier": "all programs which construct, copy, destroy, and modify flat_sets, all types of elements with a strict total order, all growth policies of the container", "why_tests_cant": "Reading a destroyed buffer usually gives the expected value in a test; which iterators dangle depends on the history of all the sets of the program and on the capacity of buffers.", "anchors": ["sdd/values/flat_set.hh: insert, find, lower_bound, begin, erase, unify, create"]}
{"id": "C86", "title": "Exceptions in operations on flat_set reach the caller and change nothing", "statement": "When the comparison of two elements throws or memory is refused during an operation on flat_sets, the operation raises this exception and the flat_sets are unchanged; when the operation returns, its result is the right one.", "quantifier": "all sets, all comparisons which throw on any pairs of elements and are right otherwise, all behaviours of the allocator", "why_tests_cant": "Tests use integers, whose comparison never throws, and memory is never refused; the comparisons made depend on the sets.", "anchors": ["sdd/values/flat_set.hh: sum, intersection, difference, count, insert, erase, find, lower_bound, create, unify"]}
{"id": "C87", "title": "Rewriting does not change termination", "statement": "rewrite(o, h)(o, x) returns if and only if h(o, x) returns, and then with the same result.", "quantifier": "all orders, all homomorphisms made of additive operations and their rewritings, all SDDs of the order, all addresses of homomorphisms, all previous uses of the library", "why_tests_cant": "A saturation applies the operations in another order than the fixpoint it replaces, with nested local fixpoints; whether all these iterations end depends on every reachable state, and a test which does not return says nothing.", "anchors": ["sdd/hom/rewrite.hh: rewrite", "sdd/hom/fixpoint.hh: fixpoint", "sdd/hom/saturation_fixpoint.hh: saturation_fixpoint", "sdd/hom/saturation_intersection.hh: saturation_intersection", "sdd/hom/intersection.hh: intersection"]}
{"id": "C88", "title": "The example of scheduling orders tasks by dependencies", "statement": "TaskModel::build_order() returns every task exactly once, each task after the tasks it depends on, when dependencies have no cycle.", "quantifier": "all task models, all iteration orders of hash tables", "why_tests_cant": "The order depends on the iteration of unordered sets; reading an erased element often gives its old value in a test.", "anchors": ["examples/scheduling/TaskModel.hpp: build_order, add_dependency, dependencies_of"]}
{"id": "C89", "title": "Generated task models are well-formed", "statement": "generate_task_model(n) returns n tasks; each one depends on previous tasks only, as many as drawn, is not released earlier than its dependencies require (up to twice its execution time), and fits between its release and its deadline.", "quantifier": "all numbers of tasks without overflow, all sequences of random numbers in the ranges of the distributions", "why_tests_cant": "The model is random: a test sees a few draws.", "anchors": ["examples/scheduling/TaskModelGenerator.hpp: generate_task_model", "examples/scheduling/TaskModel.hpp: add_dependency, task, eta, ets"]}
{"id": "C90", "title": "The example of scheduling counts schedulings", "statement": "In each counted scheduling every task starts after the end of the tasks it depends on; exchanging the cores of a counted scheduling gives a counted scheduling.", "quantifier": "all task models, all numbers of cores", "why_tests_cant": "The program prints a number only; which schedulings it counts depends on how filters accumulate from one core to the next one.", "anchors": ["examples/scheduling/scheduling.cpp: main", "examples/scheduling/Filters.hpp: filter_constant, filter_constraints", "examples/scheduling/Schedulers.hpp: schedule, schedule_tau"]}
{"id": "C91", "title": "Termination is decided path by path", "statement": "A homomorphism made of additive operations which returns on some SDDs returns on every SDD all of whose paths are in some of them: on subsets of SDDs on which it returns, and on unions of such SDDs.", "quantifier": "all orders, all homomorphisms made of additive operations, all SDDs of the order, all previous uses of the library", "why_tests_cant": "Termination is not observable by running, and the number of subsets and of unions of the reachable sets is not bounded.", "anchors": ["sdd/hom/fixpoint.hh: fixpoint", "sdd/hom/intersection.hh: intersection", "sdd/hom/saturation_fixpoint.hh: saturation_fixpoint", "sdd/hom/definition.hh: homomorphism::operator()"]}
{"id": "C92", "title": "Set operations and homomorphisms can be mixed freely", "statement": "In any session mixing creations of SDDs, set operations, applications of homomorphisms (each of which may raise, also from the code of the user), destructions of SDDs, resets of caches and reuse of freed memory: two SDDs held by the user are equal exactly when they contain the same paths, whether they come from operations or from homomorphisms; sum, intersection and difference are the operations on sets, and raise Top exactly when two paths of the operands are incompatible; an application of a homomorphism returns what it returns in a new manager; and h(o, x + y) == h(o, x) + h(o, y) for an additive homomorphism.", "quantifier": "all sequences of calls of a session, all homomorphisms used under their order, all SDDs held, all sizes of caches and addresses", "why_tests_cant": "Homomorphisms and operations share the unique tables and the caches of operations; the number of interleavings of their uses is not bounded.", "anchors": ["sdd/manager.hh: manager", "sdd/dd/context.hh: context", "sdd/hom/context.hh: context", "sdd/hom/evaluation.hh: cached_homomorphism", "sdd/dd/definition.hh: SDD"]}
{"id": "C93", "title": "Temporary memory goes back to the system", "statement": "Every block of memory that the containers of temporary operands obtain from the system, because the arena is too small, is returned to the system when the container releases it; when no temporary container is in use, nothing is held from the system.", "quantifier": "all histories of allocations, releases and rewinders, all sizes of the arena and all addresses chosen by the system", "why_tests_cant": "the arena decides by comparing addresses, which the system chooses; a wrong comparison at the limit of the buffer needs a particular address to be seen, and its effect is a leak, not a wrong result", "anchors": ["sdd/mem/linear_alloc.hh: arena::deallocate, arena::pointer_in_buffer"]}
{"id": "C94", "title": "The arena does not wear out", "statement": "Once the temporary containers of a call are destroyed, the memory they used in the arena is available for the next calls: a program may make any number of calls without the arena becoming smaller.", "quantifier": "all sequences of calls, all numbers of operands, all sizes of the arena and all addresses chosen by the system", "why_tests_cant": "Results do not depend on it: a worn out arena only makes every later temporary container go to the system. The loss of one call is a few bytes out of 16 MB.", "anchors": ["sdd/mem/linear_alloc.hh: arena::allocate, arena::deallocate, rewinder", "sdd/dd/nary.hh: nary_builder::add, nary_builder::reserve", "sdd/dd/sum.hh: sum(InputIterator, InputIterator)"]}
{"id": "C95", "title": "Paths can be enumerated while the program goes on", "statement": "The generator returned by paths() yields the paths of the SDD it was called on, whatever the program does between two paths: it may create, assign and destroy handles, including the one paths() was called on. The generator never reads memory which was released, ends after a number of steps which only depends on the SDD, and may be destroyed at any time.", "quantifier": "all programs, all SDDs, all interleavings of the program with the steps of the generator, all points where the generator is destroyed", "why_tests_cant": "The nodes still to be visited are only kept alive by the handle inside the generator; a test sees released memory only if the program happens to release it at the right time.", "anchors": ["sdd/dd/definition.hh: SDD::paths", "sdd/dd/path_generator.hh: paths_visitor, paths", "sdd/dd/sdd_stack.hh", "sdd/mem/ptr.hh"]}
{"id": "C96", "title": "The code of the user may use the library while the library calls it", "statement": "Functions and inductive homomorphisms may themselves apply homomorphisms, call operations on SDDs, clear the caches or throw while they are called by the evaluation of a homomorphism, at any depth. The evaluation during which they are called, the evaluations they make, and all the later ones return the right results, and the caches stay sound and bounded.", "quantifier": "all histories, all homomorphisms and operands, all behaviours of the code of the user at all the points where it may be called, nested at any depth", "why_tests_cant": "The caches are modified between the look-up and the insertion of an application in progress; what happens depends on which applications are nested in which, and on later evictions.", "anchors": ["sdd/mem/cache.hh: cache::operator()", "sdd/mem/hash_table.hh: insert_check, insert_commit, erase", "sdd/hom/evaluation.hh", "sdd/hom/inductive.hh", "sdd/hom/function.hh"]}
{"id": "C97", "title": "The depth of recursion depends on the depths of operands, not on their sizes", "statement": "An operation on SDDs nests at most as many operations as the height of its operands. An application of a homomorphism nests at most as many applications as given by the depth of the order, the depth of the homomorphism and the depths of the homomorphisms returned by inductives. With room for these numbers of calls on the stack, and no more, results are right, whatever the sizes of the operands, the numbers of iterations of fixpoints and the contents of caches. The destruction of a handle nests at most as many destructions of objects as the longest chain of objects from the one it points to.", "quantifier": "all operands, orders, homomorphisms, histories, numbers of iterations and choices of addresses; all programs on handles", "why_tests_cant": "A stack overflow appears only on inputs deeper or larger than the tested ones; tests cannot show which measure of the input the depth of recursion depends on.", "anchors": ["sdd/hom/definition.hh: homomorphism::operator()", "sdd/hom/evaluation.hh: evaluation", "sdd/hom/fixpoint.hh", "sdd/hom/saturation_fixpoint.hh", "sdd/dd/sum.hh", "sdd/dd/intersection.hh", "sdd/dd/difference.hh", "sdd/mem/ptr.hh: ~ptr", "sdd/mem/unique_table.hh: erase"]}
{"id": "C98", "title": "Caches keep what they refer to, and never mistake an operation for another one", "statement": "Cached operations and results hold references on SDDs; operations are compared by the addresses of their operands, and addresses are used again. Whatever is created, copied, moved and destroyed by the user, whatever is evaluated, interrupted by an exception, found, evicted or removed from caches: no released object is used, nothing is released twice, a result is found only for an operation on equal operands, and the SDDs in memory are exactly the parts of those held by variables, by cached operations and results, and by operations being evaluated. When nothing of these is left, nothing is left in memory. While an operation stays in a cache, the addresses of its operands, which are hashed and compared, do not change.", "quantifier": "all programs, evaluations, exceptions, choices of evicted entries, addresses and hash functions", "why_tests_cant": "A wrong reuse of an address or a lost reference appears only for some orders of evictions and allocations; tests see the ones of their allocator.", "anchors": ["sdd/mem/cache.hh: cache::operator(), cache::clear", "sdd/mem/cache_entry.hh: cache_entry", "sdd/dd/nary.hh: nary_op, nary_builder::consolidate", "sdd/dd/difference.hh: difference_op", "sdd/hom/evaluation.hh: cached_homomorphism", "sdd/mem/ptr.hh: ptr"]}
{"id": "C99", "title": "function() and local() act on the identifier they are given, or report an error", "statement": "function(o, id, f) and local(id, o, h) either give a homomorphism which acts on the identifier id, or report an error. Applying a homomorphism to an SDD of the order o is never undefined: it returns its meaning, reports an error, or does not end.", "quantifier": "all orders, identifiers at any depth, functions and homomorphisms of the user, SDDs of the order and histories", "why_tests_cant": "Whether a combination of identifier and operation is accepted and then misbehaves depends on the shape of the order; tests use a few orders, with suitable identifiers.", "anchors": ["sdd/hom/function.hh: function", "sdd/hom/local.hh: local", "sdd/order/carrier.hh: carrier", "sdd/hom/evaluation.hh: evaluation"]}
{"id": "C100", "title": "Temporary objects of operations are at suitable addresses", "statement": "During operations on SDDs, temporary containers of SDDs, values and pairs of them share a buffer of memory. Each object of these containers is at an address suitable for its type (for instance, pointers are at multiples of 8), whatever the type of the values of the configuration, the operations, the growth of containers, the nesting of evaluations and the exhaustion of the buffer.", "quantifier": "all types of values and elements, buffers, sequences of allocations, releases and nested scopes", "why_tests_cant": "Most machines tolerate unsuitable addresses most of the time; tests use values whose size hides the problem.", "anchors": ["sdd/mem/linear_alloc.hh: arena, linear_alloc, rewinder", "sdd/dd/nary.hh: nary_builder", "sdd/dd/sum.hh: sum_op_impl", "sdd/dd/alpha.hh: alpha_builder", "sdd/dd/square_union.hh: square_union", "sdd/util/packed.hh"]}
{"id": "C101", "title": "The code of the user only receives identifiers given by the user", "statement": "Strategies and load_order add hierarchical levels with artificial identifiers to orders. The code which the user provides (initializers of SDDs, `skip` of inductive homomorphisms) is never given such an identifier: what it does with identifiers the user did not give has no effect on the SDDs built from orders, nor on the results of homomorphisms.", "quantifier": "all order builders made by the functions of the library, initializers, inductive homomorphisms, operands, states of the caches", "why_tests_cant": "Tests of inductive homomorphisms use orders written by hand; the identifier received depends on the strategy and on the nesting of levels.", "anchors": ["sdd/order/order_identifier.hh: order_identifier", "sdd/order/strategies/identifiers_per_hierarchy.hh", "sdd/order/strategies/flatten.hh", "sdd/tools/order.hh: load_order", "sdd/dd/definition.hh: SDD(o, init)", "sdd/hom/inductive.hh: skip"]}
{"id": "C102", "title": "A program can go on after std::bad_alloc during the creation of data", "statement": "When the system refuses memory during the creation of an SDD, of a homomorphism or of a set of values, std::bad_alloc is thrown. A program which catches it and goes on is safe: the variables keep their values, later statements are never undefined and compute the same values as if the failed creations had not been tried, equality of handles still means equality of data, nothing which can be reached from a variable is released, and no memory is lost.", "quantifier": "all programs on handles, sequences of failures of requests of memory, hash functions, sizes of tables", "why_tests_cant": "Tests do not make allocations fail; the effect depends on which request fails, on the load of the table and on whether the datum already exists.", "anchors": ["sdd/mem/unique_table.hh: unique_table::operator(), allocate", "sdd/mem/hash_table.hh: insert, rehash", "sdd/dd/definition.hh: unify_node", "sdd/mem/ptr.hh"]}
{"id": "C103", "title": "Any JSON array of identifiers can be loaded as an order", "statement": "load_order accepts any text which is a JSON array of identifiers and arrays: the builder has the identifiers of the text in the same order with the same nesting, and an order can be made of it unless an identifier is repeated. Other texts do not give a builder.", "quantifier": "all texts, for identifiers which are integers or strings", "why_tests_cant": "Tests load a few hand-written texts; texts are unbounded in length and in depth.", "anchors": ["sdd/tools/order.hh: load_order, load_order_impl, mk_order_identifier", "sdd/order/order_builder.hh: height, operator<<"]}
{"id": "C104", "title": "Composition and rewriting do not change the meaning of any homomorphism", "statement": "Whatever the homomorphisms a and b which can be built (intersections of any operands and user's functions which are not unions of the images of values included), composition(a, b) applied to x is a applied to the result of b, and rewrite(o, h) applied to x is h applied to x.", "quantifier": "all pairs of homomorphisms which can be built, all orders, all operands, all addresses", "why_tests_cant": "Tests compose a few homomorphisms, which are path by path; the regrouping of locals is wrong only for values shared by several arcs, for some homomorphisms.", "anchors": ["sdd/hom/composition.hh: composition", "sdd/hom/local.hh: local", "sdd/hom/rewrite.hh: rewrite"]}
{"id": "C105", "title": "if_then_else obeys its documented equation whatever its branches", "statement": "Whatever the branches t and e which can be built (intersections of any operands and user's functions which are not unions of the images of values included), if_then_else(p, t, e)(x) == t(p(x)) + e(x - p(x)).", "quantifier": "all selector predicates, all pairs of branches which can be built, all orders, all operands, all addresses", "why_tests_cant": "The simplification of equal branches is wrong only for branches which look at several values together, on operands which the predicate splits inside a set of values.", "anchors": ["sdd/hom/if_then_else.hh: if_then_else"]}
