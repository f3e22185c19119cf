# Formal model of TeDDy (MichalMrena/DecisionDiagrams) in Lean 4

## 1. What is modelled, and how

The library keeps reduced ordered multi-valued decision diagrams in one manager. The
model is an executable Lean 4 program that follows the C++ function by function.  Every
definition carries a comment with the file and lines it models and, where it simplifies,
how.

* **Heap of nodes** (`node.hpp`): addresses are natural numbers; each node field (kind,
  reference count, mark bit, used bit, data member) is a map from addresses. Reading or
  writing a node whose used bit is off is the distinct outcome `useAfterFree`.
* **Node pool** (`node_pool.hpp`): free list, bump pointer, end of the current pool and the
  available counter. Handing out a slot past the pool is the outcome `poolOverrun`.
* **Memory** (`Mem` in `NodeManager`): which slots hold a constructed node, which arrays of sons are allocated, which
  array belongs to which node, the list of pools. Freeing an array that is not allocated is the outcome `doubleFree`,
  destructing a node where none is `unbuilt`. Simplifications: the array of a new internal node is allocated where the
  node takes it or releases it, not by the caller; managers with a fixed domain keep the sons inside the node, the model
  follows a fictitious array; the bucket arrays of
  tables and cache (`Heap`) are followed except the local copy of a table made by `swap_variable_with_next`.
* **Unique tables / apply cache** (`hash_tables.hpp`): bucket arrays with capacities from
  the library's table of primes; the hash of a son tuple (it depends on real addresses) is
  an arbitrary function, a parameter of the model, so theorems hold for every address
  layout. The chains are followed pointer by pointer (`Links`: `next_` of every node, the head of every
  bucket): find, insert, erase, rehash, merge, the sweep of the garbage collector and the walk of
  `swap_variable_with_next` over its local copy read and write these pointers, with fuel one more than the number of nodes
  ever handed out; `Table.buckets` is the list a chain is meant to hold. The pool's free list is a list whose head is
  `freeNodes_`; `create` reads the next free node through `next_` and ends in `badChain` where the two differ. `saved` in
  `Links` is a ghost.
* **node_manager** (`node_manager.hpp`): make_terminal/internal/new node, garbage
  collection, reference counts, mark protection, traversals with mark toggling, variable
  swap and sifting.
* **diagram_manager / reliability_manager**: every algorithm, in a state monad with errors
  (undefined behaviour, failed assertion, recursion fuel exhausted). Recursion uses a fuel
  argument equal to the number of levels plus one; theorems show it is never exhausted.
* **Handles** (`diagram.hpp`): a ghost count per node of live diagram handles, and at the top
  a `World` of named handles with `exec`, one case per public API call. Histories of API calls
  are the inductive relation `Reachable`.

Doubles (ratios, probabilities) are exact rationals, except in `Rounding.lean`, which repeats the calculation of
probabilities and counts with every operation rounded as in IEEE 754; machine integers are mathematical
integers with explicit overflow outcomes where the width matters (`domain_product`,
`int_pow`, `satisfy_count`, PLUS, MULTIPLIES, PLA line counts, the packed node word).

### Map from code to model

| code | model | proofs |
|---|---|---|
| `node.hpp`, `node_pool.hpp`, `node_manager.hpp` | `Basic`, `NodeManager` | `Inv`, `Mem`, `Make`, `Gc`, `Traverse`, `SwapDec`, `SwapNode`, `Reorder`, `Destroy`, `Tidy` |
| `node.hpp` bit fields | `Bits` | `BitsLemmas` |
| `hash_tables.hpp` | `Table`, `Links` | `TableLemmas`, `Links`, `Saved` |
| `operators.hpp` | `Ops` | `OpsLemmas` |
| `tools.hpp` | `Sort`, `Arith` | `SortLemmas`, `ArithLemmas` |
| `diagram_manager.hpp`, `diagram.hpp` | `Diagram`, `World`, `KeySpec` | `Apply`, `ApplyN`, `Folds`, `Transform`, `Canon`, `Count`, `Queries`, `Vectors`, `NodeCount`, `Handle`, `Reduce`, `Sim`, `Restore`, `Keys`, `Observe`, `SatOne`, `Sizes`, `Program`, `Auto`, `Deferred`, `TidyBelow`, `Repair`, `Unmarked` |
| `reliability_manager.hpp`, `dplds.hpp` | `Reliability`, `Binary` | `Dpld`, `Mcvs`, `Probability`, `Mnf`, `Pivot`, `SeriesParallel` |
| `pla_file.hpp`, `pla_file.cpp` | `Pla` | `PlaLemmas`, `PlaLoad`, `FromPla` |
| `libtsl/truth_table*` | `TruthTable` | `TruthTable`, `TruthTableRel`, `Bridge` |
| `libtsl/iterators`, `expressions`, `generators` | `Iterators`, `MakeDiagram` | `Iterators`, `Expressions`, `MakeDiagram` |
| the same in `double` | `Rounding`, `RoundingSpec` | `Rounding`, `RoundingLevel`, `RoundingCount` |
| `probabilities.hpp`, `symbolic_availability` | `Symbolic` | `Symbolic` |
| `to_dot_graph`, `for_each_node` | `Dot`, `DotSpec` (what a reader of the picture does) | `Dot`, `DotText` |
| `examples/n_queens.cpp` | `Queens` | `Queens`, `CountWide` |
| the queries of `diagram_manager.hpp` with a counter of steps | `Cost` | `Cost`, `Parity` |
| `transform` and `get_cofactor` with a counter of calls | `CostTransform` | `CostTransform`, `Shrink`, `Grow` |
| `apply` with a counter of calls | `CostApply` | `CostApply` |
| `transform` with a function that throws | `Throwing` | `Throwing` |
| `core.hpp`, `reliability.hpp` (constructors) | `Managers` | `Sim` |
| the other `examples` | `Shipped` | `Shipped`, `Aborts` |
| `tests/core.test.cpp`, `tests/setup.hpp` | `UnitTests`, `TestSpec` | `UnitTests` |
| `experiments/dplds.cpp` | `Experiments` | `Experiments` |
| `tests/reliability.test.cpp` | `ReliabilityTests`, `SystemTest`, `ReliabilityTestSpec` | `ReliabilityTests`, `SystemTest` |

Specifications: `Spec` (functions of assignments, counting, positions in truth vectors),
`ApiSpec` (preconditions on operations), `WorldSpec` (abstract state, what a call makes and
answers, what a caller has to observe), `PlaSpec`, `TruthTableSpec`, `ExprSpec`, `ProgramSpec`, `QueensSpec`, `BinarySpec`, `RoundingSpec`, `ReleaseSpec`, `ChainSpec`, `AskSpec`, `TestSpec`, `ReliabilityTestSpec`, `SeriesParallelSpec`, `SiftSpec`. They do not
mention heaps, tables or marks. Property theorems are in `Verif/Properties`, apart from the
lemmas in `Verif/Proofs`; an `example` next to each shows its hypotheses met on a concrete
manager (`Demo`).

### Invariants

* `Inv s ext`: table placement and hashing, used ⇔ placed, sons live with right arity, every
  reference count exactly `handles + parent edges`, pool accounting, order maps inverse,
  sons strictly below parents.
* `LinkOK` (part of `Inv`): the pointers of every bucket and of the free list spell exactly the list meant; the chains are
  disjoint. During a swap the walk goes along the old chains while nodes are inserted into new ones: `next_` of
  the nodes not yet met is as it was saved (`Proofs/Saved`).
* `CacheOK`: each cache entry's nodes are live and the result is the pointwise operation.
* `Canon`: no redundant live node, no two live nodes with the same index and sons.
* `Prot`: reachable from a marked node or a handle. Main relation `s ⊑ s'`: everything
  protected stays protected with the same contents. Every primitive satisfies it, which
  makes garbage collection in the middle of a recursion harmless.
* `Rel P σ w`: a `World` `w` refines the abstract state `σ` (a list of functions, the order, and
  four flags: canonical, cache valid, no stale marks, automatic reordering enabled). `sim` shows that every admissible call
  preserves it and answers what the specification says; `reachable_rel` lifts it to histories.

## 2. Per-property plan and status

"P" proved as stated, "p" partial: the property as stated is false of the code (or of some
histories) and both a counterexample (`…_violated…`) and a theorem with the exact guard
(`…_partial`) are proved. Theorem names are in `MANIFEST.json`.

* **Operations on diagrams.** C01 p, C04–C07 P, C13 p, C25 P, C32 P: total correctness by
  induction on fuel/levels (no error outcome, invariant kept, result evaluates as specified),
  lifted to histories by `sim`. C01 and C13 inherit the counterexample of C20 (operations that share an id). C33 p: `to_dpld_e`.
* **Canonicity.** C02 P, C12 P: induction on levels from `Canon`. C44 p: `reduce`, also for
  histories with reordering (`Proofs/Reduce`). Reducing every live diagram makes the manager canonical
  again (`Reachable.reduced`, `Proofs/Restore`), so the theorems about canonical states apply afterwards.
* **Absence of failures.** C03 P, C47 P: no call of a reachable state ends in an error. C37 p:
  pool sizes. C43 p: construction, for each class of managers. C75 p: the shipped examples call by call, for all hash
  functions and addresses; `soft_x` aborts with assertions. C76 p: each unit test of the core as a program that returns
  whether its requirements are met, for all fixtures and all random numbers (`auto_var_sift` only for seeds whose diagrams do not use up the
  pool, see C45). C77 p: the same for the tests of the reliability functions, with
  exact arithmetic. C79 P: the experiment with derivatives, the two ways of making them by running both from the same state.
  C80 P: a relation between worlds, "this slot keeps its pointer", kept by every call that does not write the slot; with
  C02 for the lookup.
* **Counting and enumeration.** C08 p, C09 P, C10 P, C22 p, C23 p, C36 p: against the list of all
  assignments; the mark-toggling traversals need the absence of stale marks. C73 p: `satisfy_one` into an array.
  C81 p: the queries with a counter of steps (`Cost`); bounds by induction on the levels, the parity function as counterexample.
  C84 P: `transform` and `get_cofactor` with a counter beside the memo table (`CostTransform`); the sons of the nodes without an entry
  are what may still be called, and the recursion below a node makes no entry on its level or above.
  C86 P: every node of the result is a result the memo table holds or a terminal, so it has a node of the operand of its own (`Shrink`).
  C87 P: every node of a cofactor is a node of the operand or a result the memo table holds (`Grow`).
  C88 p: induction over the recursion of `apply_impl`, each call goes down at least one level (`CostApply`).
* **Exceptions.** C82 p: `transform` with a partial function (`Throwing`), the recursion with an exit at each call; an exception is
  one more step of the histories (`Reachable.thrown`), so that every theorem about reachable states also holds after exceptions.
* **Whole programs and sizes.** C60 p: two simulations of one abstract state, whose specification determines the
  answers (`Proofs/Program`; for `satisfy_one` by the search `searchOne`). C66 p: the same for programs that differ
  in housekeeping calls, which leave the abstract state alike. C61 P: counting subfunctions. C62 p:
  the n-queens example call by call; a bijection between boards and placements.
* **Vectors.** C11 P, C12 P: the stack algorithm computes the mixed-radix table.
* **Memory.** C14 P, C15 P, C16 p: one collection step preserves `Inv`; the loop gives soundness and
  completeness. C72 p (`rehash` abandons the old array): the arrays of sons and the constructed nodes are in bijection
  (`MemOK`, part of `Inv`), the tables own different arrays and the others number the calls of `rehash` (`HeapOK`). For programs
  that misuse the interface `Inv` fails, but `MemOK`, `HeapOK` and the counters of the pool do not: every function of the model keeps
  them or ends in another error (class `Tidy`). C85 p: the specifications of `forceGc` and `makeRoom` compared. C74 P: chains of pointers, by `LinkOK`.
* **Reordering.** C17 P, C18 P: a swap of adjacent levels preserves evaluation; sifting is a sequence of
  swaps. C19 p (stale cache), C45 p (automatic reordering: false in general). With the flag set every program runs in step with the
  same program without it until the node pool is extended, and the converse as long as the pool is not used up
  (`Proofs/Auto.lean`). Histories may enable automatic
  reordering: the deferred reordering keeps the invariant and what evaluates from handles (`Proofs/Deferred.lean`), so
  calls that do not start it, and `get_cofactor`, which registers its result before, are right. Theorems about the
  other calls carry the hypothesis `σ.auto = false`, which `C45_settled_partial` shows how to restore. C59 p (only
  counterexamples; a lower bound of the count is proved in C15 and C23). C83 P: sifting is a sequence of placements (`SiftSpec`); the
  loops carry the list of managers met so far and which of them is the first with the lowest count, and the levels of the other
  variables as if the moved one were not there, which fix the whole order.
* **Queries leave no trace.** C24 p.
* **Components.** C38, C39, C46 P: refinement of the bucket structures to finite sets / partial maps, for
  every hash function. C40 P heapsort. C41 p powers. C42 p bit fields. C20, C21 p, C48 P
  operators.
* **PLA.** C26 p, C27 P, C28 p: bit packing, text-level parser, `from_pla`.
* **Reliability.** C29–C31 p traversal theorems plus linearity of expectation; C34, C35 p composition of
  dpld, to_dpld_e, tree_fold and satisfy_all; C54 p Fussell-Vesely by way of `to_mnf`, C78 p in terms of minimal cut vectors (derivatives of
  series-parallel systems are layered, by induction on the structure; for other coherent systems the answer lies between two
  bounds, because every node of the transformed diagram lies between the node and its closure: `Proofs/MnfBounds`). C63 p symbolic
  availability, C64 p distributions over time: real numbers. C68 p, C69 p: overloads for binary systems, and
  conditioning on one component, by rearranging the sum over assignments (`Proofs/Pivot`). C70 p: for any rounding
  with relative error `u` and absolute error `η`, an induction over the levels bounds the computed value of a node by
  multiples of its exact value; then `double` is shown to be such a rounding; for
  `calculate_probabilities` the mass that has not been passed on, weighted by the value of the node, changes by a
  bounded factor with each edge (`Proofs/RoundingLevel`). C71 p: integers up to 2^53 are doubles; beyond, each level adds a bounded
  number of roundings (`Proofs/RoundingCount`).
* **Printed graphs.** C65 p: the visitor collects the graph of the visited nodes; a reader who follows its arcs
  finds the value of the function; the text can be read back.
* **libtsl truth tables.** C49–C51 P, C53 P, C52 p: loops over the tuples in lexicographic order.
  C67 p: tables and diagrams of the same function give the same answers, by a bijection between tuples and
  assignments (`Proofs/Bridge`); Fussell-Vesely importance for layered derivatives of coherent systems (`Proofs/TableImportance`).
* **libtsl iterators, expressions, generators.** C55 p: an odometer walks through the assignments
  (`Walk`). C56 P: evaluation, `from_vector` of an evaluating iterator, and `make_diagram` as a program
  of API calls. C57 p, C58 P: for all random numbers.

No listed property was found impossible to express. What is expressed with a reservation: C29–C31,
C36, C51, C53, C54, C58 are about exact arithmetic, not doubles; C70 bounds the distance for C29 and C31, C71 is
the part of C36 that concerns counts.

## 3. Disagreements between properties and code

Each is proved as a theorem about the model; complete programs of API calls are in
`Properties/Violations*.lean`.

1. `mpvs` calls `mcvs_g` (reliability_manager.hpp:1014-1024): returns cut vectors. `mpvs_g` never lists
   the all-worst vector, `mcvs` never the all-best one (C34, C35; the same in libtsl, C52).
2. All `PLUS<M>` share one operation id, all `MULTIPLIES<M>` another (operators.hpp:253-278),
   so the apply cache mixes results of different moduli (C20).
3. `force_reorder` (diagram_manager.hpp:1953) does not clear the apply cache although sifting
   frees and reuses nodes: a later `apply` returns a wrong diagram (C19). With `clear_cache` after the
   reordering it is right (`C19_violated_cleared`, and in general `C19_apply_partial`).
4. `from_expression_tree_impl` leaves mark bits on intermediate operands
   (diagram_manager.hpp:1137-1173); a later traversal of a diagram sharing such a node skips
   it, and the node is never collected (C08, C16, C22, C23, C24, C36, C67–C70).
   What `reduce`, `negate` or `transform` return is free of marks after any history, so `reduce(d)` is a way out
   (C24_reduce_repairs_partial, C08_reduced_partial). The diagram that `from_expression_tree` itself returns, and every
   derivative, is free of marks as well (C24_from_expression_partial, C24_dpld_partial); the wrong answers concern
   diagrams made by other calls before or after.
5. `make_terminal_node` asserts `value < Domain::value` before testing for the special value
   (node_manager.hpp:439-447): `to_dpld_e`, `mcvs`, `mpvs` abort on fixed-domain managers when
   assertions are on, for every diagram (C33_violated_always, C34_violated_always), hence the shipped example
   `soft_x.cpp` aborts (C75_soft_x_violated). `to_dpld_e` returns a diagram that tests the variable unchanged.
6. Pool growth threshold `int64(gcRatio*nodeCount)` may be 0 (node_manager.hpp:1043-1055), then
   a full pool with nothing to collect is overrun (C37, C60). The same happens with larger pools after `set_gc_ratio(0)`,
   although the documentation allows ratios from 0 to 1 (C66). Same for an extra pool of size 0.
7. `PLUS`/`MULTIPLIES` add/multiply before testing for Nondetermined: signed overflow (C21). Second operands that are constantly
   0 or 1 are safe (C21_constant_partial).
8. `int_pow` is instantiated at int32 by `domain_product` (node_manager.hpp:723): overflow for
   3^20 (C08, C41). For binary variables `domain_product` shifts 1 by the number of skipped levels, which is
   undefined from 64 on: `satisfy_count` of the constant 0 in a manager of 64 variables
   (C08_violated_shift), and in general of every diagram with an edge over 64 levels (C08_violated_wide),
   such as those of the shipped example `n_queens` for nine queens and more (C62_violated).
9. `inc_ref_count`'s assertion can never fail and the count overflows into the leaf bit at
   2^29-1 (C42).
10. `from_pla` folds an empty vector for an all-don't-care cube and for a file without lines (C26).
    `load_file` throws `std::length_error` on a line count that is negative as int32 (C28).
11. The constructor divides by zero for one variable and asserts for zero variables (C43).
12. Reordering may leave redundant and duplicate nodes; equality needs `reduce` (documented
    for automatic reordering). Even `reduce` is not enough: swapping relabels every node of the
    moved variable, also those that do not depend on the next one, and a second reordering can turn
    such a node back into a copy of an existing one. Which of the two copies `reduce` finds depends on
    the order within a bucket, and resizing a table reverses it (C44_violated).
13. With automatic reordering `apply` protects its result only by a mark which sifting can clear
    (C45). `set_auto_reorder(false)` does not cancel a reordering that is already due
    (C45_violated_disabled).
14. `calculate_probability` on a diagram with the Undefined terminal reads an uninitialised
    data member; for a negative state the table of terminals is indexed out of
    range (C29).
15. `satisfy_count` overwrites the probabilities stored by `calculate_probabilities` (C30); a terminal made
    after it has none, and `get_availability` reads it (C31).
16. `to_mnf` (reliability_manager.hpp) is not the downward closure of a derivative in general:
    Fussell-Vesely importance is then wrong (5/16 instead of 3/8 for a coherent system, C54_violated; the truth table is right, C67_violated_fussell_vesely), and
    it may read data of nodes skipped because of stale marks (C54_violated_marks). The unit test cannot find this: its random
    systems are series-parallel, and for these the importance is right (C77, C78). For coherent systems the answer is never too
    large and no uninitialised data is read (C78_bounds_partial).
17. libtsl `truth_table`: the constructor takes the maximum of an empty range if every value is
    Undefined; `calculate_mcvs`/`calculate_mpvs` read the front of an empty vector if every component has one
    state (C52_violated); `fussell_vesely_importance` divides by the unavailability without a check.
    `tsl::apply` writes to a const vector and does not compile when instantiated.
18. libtsl `domain_iterator`: the constructor with fixed values writes to its own member `varVals_` from the
    initialiser of that member (iterators.cpp:67); the *last* variable of the order changes most often,
    contrary to iterators.hpp:40-45; an iterator with an empty order (or all variables fixed) never
    reaches the end (C55).
19. libtsl `make_expression_tree` does not terminate for no variables (C57), and numbers the leaves in the
    unspecified order of argument evaluation: trees differ between compilers.
20. `probs::weibull(scale, shape)` and `symprobs::weibull(shape, scale)` take their arguments in different
    orders, and `exponential`/`weibull` return densities, which can exceed one (C64); a Weibull density with shape below one is unbounded near
    time 0 and has no finite value there (C64_violated_unbounded), yet `make_time_probability_vector` draws such shapes and
    `experiments/time_probs.cpp` starts at time 0.
    `symbolic_availability` dereferences the end iterator of a map after stale marks (C63);
    `symbolic_probability` and `unsymbolic_availability` are declared but not defined.
21. `get_dependency_set_g` passes a mutable lambda to a `const` by-value parameter, `apply_n` uses a
    node pointer as allocator type, `node_pool`'s move constructor names a missing member, and so does `grow` with
    `LIBTEDDY_VERBOSE`:
    these templates do not compile when instantiated; we model the evident intent where useful.
22. `force_reorder` can add nodes, and can even choose an order that needs more nodes than the one it
    started from: swapping empties the unique table of the moved variable before it swaps its nodes, so it
    makes copies of nodes it will meet later and keeps redundant ones, and the counts that sifting compares
    include these (C59).
23. `to_dot_graph(out)` does not list the terminal `Undefined` although arcs lead to it; `to_dot_graph(out, d)`
    skips nodes after stale marks (C65).
24. `satisfy_count` of a reliability manager keeps its counts in the `double` data of the nodes: beyond 2^53
    assignments the result is rounded although it would fit `long long` (C71). With 54 Boolean variables their
    disjunction is counted as true on all 2^54 assignments (evaluating the model; not stated as a theorem).
25. `unique_table::rehash` and `apply_cache::rehash` do not free the array they replace: each enlargement of a table or
    of the cache leaks it (C72).
26. `satisfy_one` declares its container without an initialiser: with `std::array` the positions of variables that do
    not occur on the path found are indeterminate, and copying the array reads them (C73).
27. Three unit tests do not do what they are meant to (C76). `cofactor` makes a `domain_iterator` with fixed values and so has
    undefined behaviour for every seed (finding about C55); with the intended iterator it passes. `operators_2` evaluates
    `PLUS<3>` and `MULTIPLIES<3>` at `Nondetermined`, which overflows; with wrapping arithmetic it passes. `satisfy_one` requires
    that the diagram takes the values 0, 1 and 2, which depends on the random domains: it fails if no term of the
    expression has only variables with three values.
28. On the binary and the three-valued fixture with assertions, the tests `mcvs`, `basic_dpld` and `integrated_dpld_1` to
    `integrated_dpld_3` abort for every seed (C77): they make extended derivatives, whose terminal `Undefined` is not below
    the fixed domain. They pass with `NDEBUG` and on mixed domains. `system_test` compares the result of `mpvs` with minimal
    cut vectors, which hides that `mpvs` computes these (C77_violated_system_test).
29. `satisfy_one` and `satisfy_all` remember nothing about nodes in which they found no assignment. If the function has
    other values than the one searched for and one more, they can visit such nodes once for each path: with the parity of n
    variables in an `imdd_manager`, which has at most 2n + 2 nodes, both make 2^(n+1) − 1 calls for the value 2, against the
    documented O(nodes) and O(n·|Sf|) (C81). For functions with two values the documented bounds hold.
30. When the function given to `transform` throws, the nodes made so far stay marked (diagram_manager.hpp:1787-1818; marks are
    cleared only when a node becomes a son or gets a handle): a later `satisfy_count` skips them and is wrong, and
    garbage collection never frees them (C82). Handles, their functions and all calls that do not rely on
    unmarked nodes are unaffected.
31. Another pool is allocated if a collection frees fewer nodes than the ratio of the nodes in all pools (node_manager.hpp:1045,
    rounded down), while the documentation of `set_gc_ratio` and the README say of the initial pool (C85). The default ratio is 0.20,
    the README says 0.05. (Not modelled: results of `malloc` are not checked, node.hpp:103, hash_tables.hpp:723, node_pool.hpp:199.)
32. The cache of `apply` keeps one result per slot (hash_tables.hpp:766-787), and the slot depends on the addresses of the operands. When
    results overwrite each other, `apply` computes them again: with one slot in use, the parity of five variables (11 nodes) xor the
    constant 1 takes 63 calls of `apply_impl`, not at most 1 + 2·11·1 (C88). The number of calls is at most 1 + D + … + Dⁿ.

## 4. Trusted base

* Lean's kernel (Lean 4.33.0) and Mathlib's definitions used in statements (lists, permutations,
  rationals, `min`/`max`, sums).
* Axioms, as printed by `#print axioms` for each theorem in MANIFEST.json: 341 depend on propext,
  Classical.choice and Quot.sound, 15 on propext and Quot.sound, 8 on propext only, 3 on none. No other
  axiom, no `sorry`, no `native_decide`, no `bv_decide`. Finite witnesses use `decide +kernel`, which is
  evaluation by the kernel.
* The reading of the C++ recorded in the comment above each definition: the model was written by hand
  from the source, it is not extracted, and the code was not run.

**Modelled**: everything in the table of section 1, in particular all public operations of
`diagram_manager` and `reliability_manager` except those listed next.

**Not modelled**: allocation failure; exceptions thrown by functions of the user other than the one given to `transform`; int32/int64 limits on sizes, counts and levels other than those
listed; floating-point rounding other than in C70 and C71, overflow of doubles, infinities and NaN (and
`int64(double)` conversions outside the pool threshold);
operators `<<` and errors of output streams; `stats.hpp`; simplification of symbolic expressions by GiNaC; template mechanics (concepts, `prob_vector_wrap`, iterators of the input
ranges); `details/config.hpp` switches other than assertions; multi-threaded use (the library has none).
Random generators are arbitrary sequences of numbers.

**Parameters of the model** (theorems hold for all of them): number and sizes of domains, fixed or mixed
domain, assertions on or off, hash functions of node tuples and of cache keys, the address order, initial and
extra pool sizes (at least 5 and 1, see C37), initial order.

## 5. Tests of the theorems

`seeded/LOG.jsonl` lists edits of the model (boundary, missed case, swapped argument, dropped update) made
in a scratch copy and the theorems that stopped proving. `theorems_failed` names the first module(s) that
failed; modules that import them were not built.
