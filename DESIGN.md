# Formal model of libsdd in Lean 4

`properties.jsonl` lists the properties (C01, C02, ...).  The Lean project is in `lean/`.  The model and
its lemmas are in `lean/Verif/{DD,Mem,Values,Order,Hom}`.  The theorems quoted by `MANIFEST.json` are in
`lean/Verif/Properties/`; their names start with the identifier of the property.  `seeded/LOG.jsonl`
records the wrong programs against which the theorems were tested.

## Trusted base

* Lean 4.33.0's kernel.
* Axioms: every theorem depends at most on `propext`, `Classical.choice` and `Quot.sound`
  (`#print axioms`).  No axiom is added; there is no `sorry`, `admit`, `native_decide`, `bv_decide`,
  `implemented_by` or `unsafe`.  Concrete runs quoted by `example`s and by negations are evaluated by
  the kernel (`decide +kernel`, `rfl`).
* Mathlib is used for its lists, sets and finite types; it is checked by the same kernel.
* The faithfulness of the model to the C++ text, which is not machine-checked.  Each definition cites
  the file and lines of `/repo` it models and says where it simplifies.  Definitions which model no code
  say what they are: "Specification", "Proof device", "Model of the environment", or a part of the
  standard library, of Boost or of the C++ ABI.
* C++ semantics assumed: sequential execution; the system allocator does not fail (but in C81, C86, C102); no arithmetic
  overflow except where modelled (see below); the library containers behave as specified
  (`std::unordered_map`, `std::list`, `boost::flat_set`, `boost::flat_map`).  One guarantee outside
  the standard is used: range insertion in `std::unordered_map` keeps the first of two equal keys
  (true of libstdc++ and libc++; unspecified by the standard, LWG 2844).  The sum of hierarchical
  SDDs relies on it.
* User code (functions, inductives, initializers) is pure: equal arguments give equal results.  It may
  throw (C68) and use the library (C96); then it changes the caches, not its results.

## Modelling choices

| C++ | model | file |
|---|---|---|
| unified SDD | term of an inductive type `SDD V` (`zero`, `one`, `flat`, `hier`); pointer equality is equality of terms | `DD/Syntax` |
| unification, reference counting, deletion | explicit heap of cells with counters, hash table of buckets, events on handles, `none` for undefined behaviour; `C18` is what justifies the line above | `Mem/Heap`, `Mem/HeapSem` |
| arcs, operands and square unions sorted by address | stored in a strict total order `lt` on SDDs, arbitrary, which may change between two calls for nodes not in memory; each iteration inside an operation visits them in any order (`DDMonad.ord`) | `DD/Config`, `DD/Ops`, `DD/Session` |
| iteration over `std::unordered_map` | an arbitrary permutation, which may differ each time (oracle `orc`) | `DD/Config`, `DD/Machine` |
| type of values | a structure `Cfg V E` with the operations and `Cfg.Lawful`; instances for `flat_set` (sorted lists) and `bitset` | `DD/Config`, `Values/*` |
| caches, used by operations | lists of entries with an *arbitrary* eviction when full; the theorem `C55_cache_refines_list` shows that the concrete cache is one of these lists | `DD/Machine`, `Mem/CacheHist` |
| cache, concrete | pool of entries, hash table of pointers, list of uses with iterators | `Mem/Cache` |
| exceptions | `Except Err` with the state kept: `top`, `overflow` (the cache's), `invalid` (bad argument), `ub`, `fuel` | `DD/Config` |
| recursion | fuel with its own error; theorems give a sufficient fuel for SDD operations (total correctness); for homomorphisms results hold for every fuel large enough | `DD/Machine`, `Hom/Run` |
| `node::size_` | truncated to the type of the configuration (`limit`); `C47` | `DD/Node` |
| homomorphisms | an inductive type `Hom V I U`; user functions and inductives are identifiers interpreted by an arbitrary `User` environment; equality of handles is equality of terms | `Hom/Syntax` |
| application | open recursion in a monad; with (`HM`) or without (`Plain`) caches | `Hom/Eval`, `Hom/Cached` |
| orders given to homomorphisms | trees of builders `OB`; `Ord.View` (C27) links them to the vector of nodes of the code | `Hom/Eval`, `Order/Order` |
| orders | vector of nodes with `next`/`nested` as indices | `Order/Order` |
| 64-bit arithmetic of hash tables, caches, hashes | `BitVec 64` or natural numbers with explicit bounds | `Mem/*` |
| FORCE, floating point | arithmetic and sort are parameters; every theorem is for all of them | `Order/Force` |
| undefined behaviour | a distinct outcome (`ub`, `none`), never a default value | everywhere |

The specification side of SDDs is the set of *paths*: `Path` is an inductive type independent of the
algorithms (a sequence of levels, each carrying a variable and a value or a nested path), `Mem C p s`
says that a path belongs to an SDD, `Dom C t s` that an SDD is canonical and follows the shape `t`
(`DD/Spec`).  The specification side of homomorphisms is `Ev h o x r` (rules on sets of paths, without
caches nor operations on SDDs, `Hom/Ev`) and, for additive homomorphisms, relations on paths
(`HRel`, `Rl`, `Hom/Rel`).  A `Session` (`Sess.Reach`) is any history of calls, drops, cache resets and
reallocations; `Lib.Reach` is any history of applications of homomorphisms, operations and resets;
`LSess.Reach` is any session mixing both, with the SDDs held by the user.

### How the proofs go

* DD: the operations are written once for any monad; a program logic (`DD/Logic`) gives one proof of
  the three mutually dependent operations by induction on depth (`SquareUnion`, `SumCorrect`,
  `InterDiffCorrect`, `Step`), used for the run without caches and for every run with caches.
  `DD/Natural` relates runs in two monads (transparency of caches, monotonicity in fuel).
* Mem: state machines with an invariant proved by induction over histories.
* Order: structural inductions on builders.
* Hom: `Ev` is proved sound and complete for the evaluation in any monad (`Loops`, `Sound`, `Run`),
  the equations of `Ev` under any order are in `Laws`; `HTy` says when a homomorphism may be applied;
  constructors are shown not to change `Ev` (`Build`, `BuildSum`) and, for additive homomorphisms, not to
  change the relation (`RelUniq`, `RelBuild`, `RelNary`, `RelRewrite`, and `SatTerm`, `Pointwise`, `SatNested` and `SatSum` for termination); `History`, `Cached` and `Transfer` give the
  statement over histories with caches; `Same` shows that `Ev` does not depend on addresses.

## What is modelled, file by file

Modelled (paths relative to `/repo/sdd`):

* `dd/`: `definition.hh` (constructors, equality, operations, `size`, `paths`), `alpha.hh`,
  `node.hh`, `terminal.hh`, `square_union.hh`, `sum.hh`, `intersection.hh`, `difference.hh`, `nary.hh`,
  `check_compatibility.hh`, `context.hh`, `count_combinations.hh`, `path_generator.hh`, `sdd_stack.hh`,
  `top.hh` (with the SDDs `lhs()` and `rhs()`, which become handles of the session) and the textual
  output of all these (`DD/Text`).
* `hom/`: `composition.hh`, `cons.hh`, `constant.hh`, `context.hh`, `definition.hh`, `evaluation.hh`,
  `fixpoint.hh`, `function.hh`, `identity.hh`, `if_then_else.hh`, `inductive.hh`, `intersection.hh`,
  `local.hh`, `rewrite.hh`, `saturation_fixpoint.hh`, `saturation_intersection.hh`, `saturation_sum.hh`,
  `sum.hh`, `traits.hh`, with their textual output (`Hom/Text`).
* `mem/`: `cache.hh`, `cache_entry.hh`, `hash_table.hh`, `linear_alloc.hh`, `lru_list.hh`, `ptr.hh`,
  `unique.hh`, `unique_table.hh` (with its statistics), `variant.hh` and `variant_impl.hh` (dispatch in
  `Mem/Variant`, hash in `Mem/Hash`; an inductive type elsewhere).
* `order/`: `carrier.hh`, `order.hh`, `order_builder.hh`, `order_error.hh`, `order_identifier.hh`, `order_node.hh`,
  `strategies/*`, with their textual output (`Order/Text`).
* `tools/`: `arcs.hh`, `nodes.hh`, `order.hh`, `size.hh`, `dot/sdd.hh`, `dot/homomorphism.hh`, `dot/force_hypergraph.hh`, `js.hh` (up to the text
  which rapidjson writes), `sdd_statistics.hh`, `manager_statistics.hh`, `serialization.hh` (up to the named values given to cereal).
* `util/`: `hash.hh`, `next_power.hh`, `packed.hh` (in `Mem/Layout`), `typelist.hh`.  `values/`: `bitset.hh`, `flat_set.hh`, `values_traits.hh`,
  `size.hh`, `empty.hh`.  `manager.hh`, `internal_manager.hh`, `values_manager.hh`,
  `conf/default_configurations.hh`.
* `/repo/examples/hanoi/hanoi.cc`, `/repo/examples/dictionary/dictionary.cc` and `/repo/examples/scheduling/*`, except messages, files and times.

Not modelled: the writing of archives by cereal (`tools/serialization.hh` is modelled up to
the sequence of named values), move semantics of user types,
`operations_fwd.hh` and other forward declarations, thread safety (the library is sequential),
running time (only numbers of evaluations and of nodes, C76 and C83).

Deliberate simplifications, also stated beside the definitions:

* One unique table for all the types of data in `Mem/Heap` (the code has one per type).  Reference
  counters are natural numbers; `Mem/Counter` has counters which wrap, and C79 says when there is no difference.
* Addresses of SDDs change during sessions of SDD operations and of homomorphisms (`Sess.Step.realloc`,
  `Lib.Reach.realloc`), as long as nodes kept alive by the caches keep theirs.  Inside one operation,
  nodes may be destroyed and created again at other addresses: there, each iteration over a container
  sorted by address is in any order (`DDMonad.ord`).  The terms built are sorted by the `lt` of the call,
  which is only a choice of representative: the results are proved for every `lt`.  Addresses of
  homomorphisms (`Build.lt`, used by the constructors of sums only) are fixed during a session.
* Variables, positions and counts of operands are natural numbers (32 bits in the code); `size_` of nodes
  is truncated as in the code; `C75` says when the number of operands of a homomorphism is, and `C80` when the number of
  operands of an operation on SDDs is.
* Dumped orders are JSON documents (trees) in C34, and texts in C77, whose reader is JSON restricted to arrays, strings and integers.
* The arena ignores alignment, as the code does; `C72_arena` says when its blocks are aligned, `C100` what this means for the types of the code.
* In the hash model, valuations of flat nodes are addresses of unified sets (`flat_set`); nodes over
  `bitset` hash the bits instead of the address.

## The model against the unit tests of the library

`Verif/Conform/{DD,Hom,Base}` run the library's own unit tests (`/repo/tests`) on the model: 32 of the 35 test files, for the
configuration with bitsets and the one with `flat_set` (`conf0`, `conf1`).  Each assertion is evaluated by the kernel on the definitions the theorems
are about.  These are tests of the faithfulness of the model, not proofs of properties, and no claim of the manifest relies on them.

Left out: `test_hom_interrupt.cc` (in the model, exceptions of user functions are raised at chosen calls, `Lib.applyX`, not at chosen values),
`test_variant.cc` and `test_typelist.cc` (dispatch on C++ types), and the tests of a filter alone in `test_cache.cc`.  The tests agree with
the model everywhere; `test_path_generator.cc` asserts the behaviour of `paths()` on |0| which `C12_negation` records.

## Properties

P = proved, N = the unchanged code violates the property: negation proved with a concrete witness, and
partial theorem kept.

| | status | what is modelled and how it is proved |
|---|---|---|
| C01 | P | canonicity (and, in `Mem/SddHeap`, equality of addresses after any program on handles): two canonical SDDs over the same order with the same paths are the same term; over sessions, for whatever addresses |
| C02-C04 | P | `DD/SumCorrect`, `InterDiffCorrect`, `Step`: in every reachable session, the returned handle has exactly the paths of the union, intersection, difference |
| C05 | P | invariant of sessions, from the same induction |
| C06 | P | C01 + C02-C04, as equalities of returned handles, in sessions |
| C07 | P | domain predicate `Dom`, in the same induction |
| C08 | P | `DD/Heads`: an operation on different heads is never in a cache and always raises |
| C09 | N | intersection stops at the first empty result, hence Top depends on addresses; partial: sums, binary intersections and differences, all operands (from C69); when it is certain for more operands: `C69_inter_top_if` |
| C10, C11 | P | `DD/Count`, `DD/Paths`: structural induction |
| C12 | N | `paths()` of the empty set yields an empty path |
| C13 | P | two sessions with different addresses, oracles and caches; straight-line programs against a denotation on sets (`DD/Program`); homomorphisms under different addresses (`Hom/Same`) |
| C14, C52 | P | `DD/Transparent`, `DD/Natural`: relation between the run with caches and the run without |
| C15 | P | `DD/NoDup`: invariants over sessions |
| C16 | N | `clear()` leaves stale positions in the list of uses; partial: histories without `clear()` |
| C17 | N | the key of the cache of homomorphisms ignores the order; partial: homomorphisms which do not read identifiers (`Transfer`) |
| C18, C19 | P | `Mem/Heap`: invariant (counters = number of references, table = live objects, acyclic) over all histories |
| C20 | N | copy self-assignment of the last handle frees its data, move self-assignment empties it; partial: the other cases |
| C21 | P | `Mem/HashTable`: refinement to a set, for any hash function, bounded sizes; `Mem/Links`: the pointers which link the data refine these tables |
| C22 | P | bit-level argument on `BitVec 64`/`32` |
| C23 | P | invariant over sequences of allocations, releases and rewinds |
| C24, C25 | P | sorted lists; `BitVec` |
| C26 | N | `to_ulong` throws in a `noexcept` operator above 64 bits |
| C27, C28, C56 | P | `Order/Order`: the vector of nodes is a view of the builder |
| C29-C31 | P | structural inductions; for 0 identifiers per hierarchy the recursion does not end (`C31_degenerate`) |
| C32 | P | FORCE, for arbitrary arithmetic and sort; `C32_hypergraph`: construction and DOT export of the hypergraph |
| C33 | N | `smallest_span` is never updated |
| C34 | N | identifiers of hierarchies are lost, single nested levels too; partial: flat identifiers and nesting |
| C35 | P | `HRel`: the relation of an additive homomorphism is the meaning of every application, over histories |
| C36, C37 | P | `Build`, `BuildSum`: regrouping does not change the meaning |
| C38 | N | regrouping locals in intersections is wrong for non-selectors; partial: the locals are selectors or alone on their level, and likewise in the intersection such a local may contain (`Hom/InterAlone`) |
| C39 | P | rule of `Ev` and the simplifications of the constructor |
| C40, C51 | P | iterates; finite sets of paths (`FixTerm`) |
| C41 | P | `RelRewrite`: same relation |
| C42, C43 | P | induction on the meaning |
| C44 | P | `Carrier`: `function` and `carrier` at any depth; `C44_local` |
| C45 | P | `Order/Init` |
| C46 | P | sorting and deduplication of operands |
| C47 | N | the number of arcs is truncated; partial: within the range |
| C48 | N | `init` tests the wrong pointer; partial: distinct types of values |
| C49 | P | traversal with a visited set |
| C50 | N | orders: equality compares contents, hash compares addresses; partial: everything else; `C50_bitset` |
| C53 | P | `Transfer` |
| C54 | P | the tokens written determine the set; `C54_characters`: so do the characters |
| C55 | P | `Mem/Cache`: memory safety and refinement of the concrete cache after any history |
| C57 | P | `Hom/Total`: induction on the typing derivation |
| C58 | P | `Mem/HeapStats`, `Mem/CacheStats`: counters against what the history did |
| C59 | P | `DD/Size`: traversal with a visited set |
| C60 | P | `DD/Dot`: lines written, up to their order, are those of the distinct SDDs below |
| C61 | P | `Mem/Variant`: position in the product of two lists of types |
| C62 | P | `Hom/Finite`: induction on the relation of the homomorphism; fixpoints and saturations by the number of missing paths |
| C63 | P | `Hom/Hanoi`: relation of each inductive, then `Rl.hnary`, `Rl.fix`, `Rl.hrewrite`; reachability by induction on the rings |
| C64 | P | `DD/Dictionary`: invariant of the loop in any session; `SDD(order, init)` is a sequence of calls |
| C65 | N | `Hom/Export`: visit of the operands; drawn kinds only (`C65_negation`: an edge to an undeclared vertex) |
| C66 | N | `Hom/Export`: induction on the homomorphism; `C66_negation` for the kinds exported as `TODO` |
| C67 | P | `Mem/Shutdown`: the members destroyed in order, on the heap of C19; well-typed programs keep data of a type below handles of the same or a higher type |
| C68 | P | `runX` (`DD/Machine`), `Call.runX` (`DD/Session`), `Lib.applyX` (`Hom/History`): the evaluations with points at which an arbitrary oracle throws; the invariants of caches hold in the state left by the exception; such calls are part of the histories (`Sess.Reach`, `Lib.Reach`) of all the other properties |
| C69 | P | `Compat` (`DD/Spec`), `DD/Top`: the proof of the operations carries a relation between paths (`RecS`, `KindS`, `step_satS`): compatible operands never meet an incompatible pair of nodes; an operation which returns, or is found in a cache, had compatible operands; handles are self-compatible in all sessions; the proof of the operations also tracks which pairs `Top` carries (`TopOK`, `TopA`) |
| C70 | P | `DD/Text`: texts are uniquely decodable in any context, by induction on depth |
| C71 | P | `Order/Text`: lines of an order, indentation gives the nesting; identifiers must not look like artificial ones (an example shows a clash otherwise) |
| C72 | N | `Mem/Layout`: offsets of fields, arcs and operands in a block by the rules of the ABI; `C72_negation`: operands of sums are misaligned in the default configuration; partial: exact condition on the types of the configuration; `C72_packed_fits` and `C72_packed_negation` for `LIBSDD_PACKED` |
| C73 | N | `Hom/Text`: unique decodability by induction on the homomorphism, with the contexts in which an unclosed text may stand (`Readable`); `C73_negation`: two results of `rewrite()` with the same text and different results; partial: readable homomorphisms, up to `Assoc` (grouping of compositions) |
| C74 | P | `Mem/HomHeap`: homomorphisms as data of the heap of C18; the data determine the term (`Hom.tree_inj`) |
| C75 | N | `Hom/Stored`: arrays of operands whose length is stored with the width of `operands_size_type`; `C75_negation` for every width; partial: exact condition |
| C76 | P | `DD/Memo`: the machine with caches, recording the operations which are evaluated (recording changes nothing: `recordRel`); invariant of evaluations in progress by the number of levels of operands; `DD/Keys`, `DD/Evals`: the operations evaluated are on a choice of at most one SDD below each operand; `DD/Cost`: so are the nodes of the results |
| C77 | N | `Order/JsonText`: the text written, read by a reader of JSON (induction on the builder); `C77_negation`: strings are not escaped, large integers, exceptions in `noexcept` functions; partial: exact condition on integers, plain strings |
| C78 | N | `Mem/Heap` (statements `read` and `readAssign`): `C78_negation`: a part assigned to the only handle on the datum it belongs to; partial: all other cases |
| C79 | N | `Mem/Counter`: counters modulo `M`; `C79_negation`: `M + 1` handles of a datum; partial: fewer than `M` pointers to each datum, then the same states as `Mem/Heap` |
| C80 | N | `DD/Width`: operations whose number of operands is stored with the width of `operands_size_type`; `C80_negation` for every width; `C80_nested_negation`: two SDDs with hierarchies are enough; partial: a relation between the recording machine of C76 and the truncating machine; the correctness proof of `step` is made with a bound on numbers of operands (`RecS … B`), the values merged by a square union having no common path |
| C81 | N | `Mem/Exhaust`: failing allocations in caches and hash tables; `C81_negation`: a lost slot, then an empty pool; partial: the state with its lost slots added to the free list satisfies the invariant of C55; tables: `C81_table` |
| C82 | N | `DD/Iter`: the visitor with a map whose iterators are invalidated by rehashes; exact characterisation of the SDDs whose count is defined; `C82_negation` for every implementation. `DD/DotIter`: the same for the DOT export, which gives an invalidated iterator to `emplace_hint` (`C82_dot_negation`) |
| C83 | P | `Hom/NoDup`: nested applications are smaller for (height of the operand, size of the homomorphism), hence no evaluation contains itself and the cache has no duplicate (also `C15_homomorphisms`); `Hom/Memo`: evaluation recording what is evaluated, related to the evaluation by `Hom/Natural`; C83_evaluated_once |
| C84 | P | `Tools/Serial`: the named values given to an archive, from the models of the statistics (C49, C58, C59) |
| C85 | N | `Values/FlatIter`: buffers with addresses, iterators are positions in buffers; invariant on programs of constructions, copies, destructions, insertions and erasures; `C85_negation` for every growth of the buffers; partial: all iterators but those of `insert`, and the exact condition for these |
| C86 | N | `Values/Throw`: the searches, insertions and merges of `flat_set` comparison by comparison, with an environment which may throw at each; `C86_negation`: `noexcept` functions end the program; partial: results, constructors, `find`, `lower_bound`, `insert` and `erase` with their strong guarantee |
| C87 | N | `Hom/SatTerm`: along the recursion of `rewrite`, a saturation returns when the operands of the fixpoint always return and finitely many paths are reachable; `Hom/SatNested`: when the operands are fixpoints which may not return, with termination decided path by path (C91); `Hom/SatSum`: induction on the homomorphism, through sums, compositions, local homomorphisms and intersections without fixpoints; `C87_negation` for intersections |
| C88 | N | `Examples/Tasks`: the sets of tasks with any iteration order; `C88_negation` for every model; partial: permutation of all tasks, when erased elements keep their content |
| C89 | P | `Examples/Tasks`: invariant of the loop on tasks, for all draws |
| C90 | N | `Examples/Scheduling`: the program on the model of the library; `C90_negation`: two task models, evaluated by the kernel; `C90_negation_selector`: `schedule_tau` is declared a selector and is not one |
| C91 | N | `Hom/Pointwise`: induction on the additive homomorphisms, the SDDs on which they return are those whose paths are in a set; `C91_negation` for intersections |
| C92 | P | `LSess.Reach` (`Hom/Session`): sessions with handles in which operations and applications are mixed; invariant: right caches, canonical handles, compatible operands in the caches of operations (also when called by homomorphisms, `homCohLogic`) |
| C93 | N | `Mem/Arena`: `C93_negation` for every buffer; partial: all addresses but one |
| C94 | N | `Mem/Arena`: `C94_negation` for every arena; partial: containers of known size in stack order, anything under rewinders |
| C95 | P | `Mem/Generator`: the coroutine of `paths()` step by step, reading nodes in the memory of `Mem/Heap`; simulation of the traversal of a term, kept by every statement which leaves the handle of the coroutine; the traversal yields `paths x` (C11) |
| C96 | N | `Hom/History`: `Lib.applyR`, code of the user which uses the library at every point where it may be called, knowing the applications in progress; `Lib.Reach` contains these executions, so the theorems about histories cover them; `Hom/NoDup`: no application in progress is added to the cache; `C96_negation`: evaluating an application in progress duplicates an entry, then the table holds a destroyed one |
| C97 | P | `Hom/Depth`: `runD`, `Lib.applyD`, the evaluation with separate bounds for the iterations and for the nested applications; going too deep is undefined behaviour (the stack); the pair of the depth of the order and of the homomorphism decreases at each nested application (`HTy.call_nest`); `Ev.term` (`Hom/Run`) gives termination; `C97_depth_grows`: the depth of the order matters; `Mem/Depth`: `dropD`, the cascade of destructions with a bound on those in progress |
| C98 | N | `Mem/OpHeap`: operations and entries of caches in the memory of `Mem/Heap`, where addresses are used again; simulation (`Rel.run`) by a machine on values whose caches compare values (`vrun`); then everything in memory is a part of a value, and conversely; the addresses hashed and compared for an entry do not change while it is in its cache (`exec_frame`); `C98_negation`: with 2^bits operands or more, the destructor of the operation does not release all of them |
| C99 | N | correct uses have no undefined behaviour (`Lib.OK.sat`), and what suitable targets are; negations for all orders and SDDs: `function` on a hierarchical identifier, `local` on a flat one, by induction on the levels above the target; `local` on a nested identifier acts on another level (witness) |
| C100 | N | `Mem/Align`: `linear_alloc` over the arena of `Mem/Arena`, with the types of `Mem/Layout`; invariant: all positions, blocks in use and saved positions are multiples of 8; negations for all values whose size is not a multiple of 8, and for all elements of such a size when containers are packed |
| C101 | N | `Order/Artificial`: the builders a program gets from the library; invariant: only levels with a nested order have artificial identifiers. `Hom/SkipUser`: congruence of the evaluation for the `skip` of inductive homomorphisms; witness for the negation |
| C102 | N | `Mem/Oom`: creations whose requests of memory fail, on the heap of `Mem/Heap`; simulation by a state where what is lost is held by handles or does not exist, to which the invariant of C19 applies; `C102_negation`: an unbounded quantity of memory is lost |
| C103 | N | `Order/LoadAny`: what a text says is a relation between JSON values and documents; inductions on documents for the builder, its identifiers and its dump; `C103_negation`: empty arrays, arrays of one element |
| C104 | N | `Hom/CompLeft`: the results of a composition are the images of those of the right operand by the relation of the left one, by induction on both; `Hom/CompFit`: only the local which is regrouped has to be additive; `Hom/RewriteSum`: sums are unions however they are grouped, by induction on the order; `Hom/RewriteInter`: likewise for intersections of selectors without fixpoints; `C104_composition_negation`, `C104_rewrite_negation`: operands which are not additive |
| C105 | N | from C39, whose proof needs additivity only when both branches are the same homomorphism; `C105_negation`: two such branches, which are not additive |

## Defects of the code found on the way

Those marked with a property are proved.

* `cache::clear()` keeps the list of uses (C16); a cache of size 0 or 1 is undefined behaviour (C55).
* Self-assignment of a handle (C20); assignment to a handle of a reference to a part of its own datum, as given by `arc::valuation()` (C78).
* The counters of references have 32 bits and wrap (C79).
* `init()` checks the wrong pointer (C48).
* Number of arcs truncated (C47); number of operands of sums of homomorphisms truncated (C75); number of operands of sums and intersections of SDDs truncated (C80).
* A failed allocation in a cache loses a slot of its pool; once the pool is empty, the next storage is undefined (C81).
* `size()` and the DOT export keep an iterator of a hash table across insertions (C82).
* `flat_set::insert` returns an iterator to a buffer which is destroyed, except in particular cases (C85); `sum`, `intersection`, `difference` and `count` of `flat_set` are `noexcept` but allocate and compare elements (C86).
* `rewrite` can turn an intersection which returns into one which does not: `intersection` stops at the first empty result, `saturation_intersection` evaluates all its operands (C87). For the same reason, an intersection may return on two SDDs and not on their union (C91).
* `paths()` of the empty set (C12); Top depends on addresses (C09).
* bitsets of more than 64 bits cannot be compared (C26).
* The cache of homomorphisms ignores the order (C17); regrouped intersections (C38).
* FORCE does not keep the best order (C33) and computes centres of gravity with integers.
* `identifiers_per_hierarchy(0)` does not terminate (C31); dumping loses identifiers (C34) and does not escape strings; errors of loading terminate the program (C77).
* Hash of orders (C50).
* Exports of homomorphisms draw some kinds only (C65, C66).
* The operands of sums of homomorphisms are stored at addresses which are not suitable for pointers (C72).
* The text of the saturation of a fixpoint without part `G` and of every saturation of a sum is not closed, so that different homomorphisms
  have the same text (C73).
* The arena never returns a block of the system which starts just past its end (C93).
* Calls of `sum` and `intersection` on ranges lose memory of the arena, until it is used up (C94).
* Code of the user which evaluates, while it is called by the evaluation of an application, the same application (C96): two equal entries in the cache, of which the table removes the wrong one.
* Sums and intersections of too many operands for the type of their number (C98): some operands are never released.
* `function` on a hierarchical identifier and `local` on a flat one are accepted, and undefined when applied; `local` on a nested identifier acts on an identifier of the first level (C99).
* The arena ignores alignment: with values whose size is not a multiple of 8 bytes, or with packed containers, temporary pointers are at unsuitable addresses (C100).
* On levels made by `identifiers_per_hierarchy` or `load_order`, `skip` of inductive homomorphisms receives a default constructed identifier, or an assertion fails (C101).
* When the allocation of `rehash` fails, the datum which was being created stays in the unique table without any handle, or its memory is lost for ever (C102).
* `load_order` reads a null pointer on any document with an empty array (in particular the dump of the empty order) (C34, C103).
* `composition(local(x, a), local(x, c))` is not `a` after `c` when `a` is an intersection which is not path by path; `rewrite` changes the results of fixpoints of such homomorphisms (C104).
* `if_then_else(p, t, t)` is `t`, which is not `t(p(x)) + t(x - p(x))` when `t` is not additive (C105).
* Noted, not stated as properties: the constructor of the arena is `noexcept` but allocates; the DOT export keeps an iterator of a hash table across insertions (as a hint);
  `local` on |1|;
  a handle which
  outlives the manager is undefined behaviour (example beside C67); `operator<<` of `cons`
  writes the identifier of the head of its order only.
* `examples/scheduling`: `build_order` dereferences an erased iterator and does not sort by dependencies (C88); dependencies need not be finished, filters accumulate from core to core (C90);
  `schedule_tau` is declared a selector and is not one, `schedule` reads the first value of an arc only.
