{"id": "C01", "title": "apply is pointwise", "statement": "For any two diagrams a and b of a manager and any binary operation Op shipped with the library, evaluate(apply<Op>(a,b), x) equals Op(evaluate(a,x), evaluate(b,x)) for every assignment x, whatever the manager did before (other applies, garbage collections, cache rehashes), and a and b still evaluate as before.", "quantifier": "every manager kind, variable order, operation, pair of diagrams, assignment and every earlier history of API calls without reordering", "why_tests_cant": "Tests sample random functions in fresh managers; correctness depends on the cache and GC history and on every pair of functions.", "anchors": ["libteddy/details/diagram_manager.hpp:apply", "libteddy/details/diagram_manager.hpp:apply_impl", "libteddy/details/node_manager.hpp:cache_find", "libteddy/details/node_manager.hpp:cache_put"]}
{"id": "C02", "title": "Canonical equality", "statement": "Without variable reordering two live diagrams of a manager compare equal with equals()/== exactly when they evaluate equally on every assignment.", "quantifier": "all pairs of diagrams obtained by any sequence of API calls", "why_tests_cant": "Requires uniqueness over all possible node tables, which depends on whole history including node reuse after garbage collection.", "anchors": ["libteddy/details/diagram.hpp:equals", "libteddy/details/node_manager.hpp:make_internal_node", "libteddy/details/hash_tables.hpp:unique_table"]}
{"id": "C03", "title": "evaluate follows the diagram", "statement": "evaluate terminates on every diagram and every in-range assignment, reads only live nodes and returns a value determined by the function alone; variables a diagram does not depend on do not influence it.", "quantifier": "all diagrams and in-range assignments", "why_tests_cant": "Needs acyclicity and liveness of everything reachable in all reachable states.", "anchors": ["libteddy/details/diagram_manager.hpp:evaluate"]}
{"id": "C04", "title": "constant and variable", "statement": "constant(v) evaluates to v everywhere; variable(i) evaluates to the value of variable i; variable_not(i) evaluates to 1 minus it in a BDD manager.", "quantifier": "all values v, indices i, assignments, histories", "why_tests_cant": "Results depend on unique-table state; tests check fresh managers.", "anchors": ["libteddy/details/diagram_manager.hpp:constant", "libteddy/details/diagram_manager.hpp:variable", "libteddy/details/diagram_manager.hpp:variable_not", "libteddy/details/diagram_manager.hpp:variable_impl"]}
{"id": "C05", "title": "transform and negate are pointwise", "statement": "evaluate(transform(d,f),x) = f(evaluate(d,x)) and evaluate(negate(d),x) = 1 - evaluate(d,x).", "quantifier": "all diagrams, transformers, assignments, histories (automatic reordering disabled, see C45)", "why_tests_cant": "Memoisation plus garbage collection inside the recursion.", "anchors": ["libteddy/details/diagram_manager.hpp:transform", "libteddy/details/diagram_manager.hpp:transform_impl", "libteddy/details/diagram_manager.hpp:negate"]}
{"id": "C06", "title": "Single-variable cofactor", "statement": "evaluate(get_cofactor(d,i,v),x) = evaluate(d, x with i set to v), and the result does not depend on variable i.", "quantifier": "all diagrams, variables, values, assignments, histories", "why_tests_cant": "Memo table keyed by node only, level-based early exit: must be right for every shape of diagram and order.", "anchors": ["libteddy/details/diagram_manager.hpp:get_cofactor", "libteddy/details/diagram_manager.hpp:get_cofactor_impl"]}
{"id": "C07", "title": "Multi-variable cofactor", "statement": "evaluate(get_cofactor(d,[(i1,v1)..]),x) = evaluate(d, x with all i_j set to v_j) for distinct i_j.", "quantifier": "all diagrams, lists of distinct variables, values, assignments, histories", "why_tests_cant": "The to-cofactor counter can differ between paths that share a memo entry.", "anchors": ["libteddy/details/diagram_manager.hpp:get_cofactor", "libteddy/details/diagram_manager.hpp:get_cofactor_impl"]}
{"id": "C08", "title": "satisfy_count is exact", "statement": "satisfy_count(v,d) equals the number of assignments on which d evaluates to v.", "quantifier": "all diagrams, values, variable orders, histories, as long as the numbers fit the integer types used", "why_tests_cant": "Depends on skipped levels for every shape, on mark bits left by history and on integer widths.", "anchors": ["libteddy/details/diagram_manager.hpp:satisfy_count", "libteddy/details/node_manager.hpp:domain_product", "libteddy/details/node_manager.hpp:traverse_post", "libteddy/details/tools.hpp:int_pow"]}
{"id": "C09", "title": "satisfy_all is exact", "statement": "satisfy_all(v,d) lists exactly the assignments on which d evaluates to v, each once, in lexicographic order of the variable order.", "quantifier": "all diagrams, values, orders", "why_tests_cant": "Exponentially many assignments; correctness with skipped levels for every shape.", "anchors": ["libteddy/details/diagram_manager.hpp:satisfy_all", "libteddy/details/diagram_manager.hpp:satisfy_all_impl"]}
{"id": "C10", "title": "satisfy_one is sound and complete", "statement": "satisfy_one(v,d) returns an assignment on which d evaluates to v if one exists, and nothing otherwise.", "quantifier": "all diagrams and values", "why_tests_cant": "Backtracking leaves stale values in variables that were tried; must be harmless for every shape.", "anchors": ["libteddy/details/diagram_manager.hpp:satisfy_one", "libteddy/details/diagram_manager.hpp:satisfy_one_impl"]}
{"id": "C11", "title": "from_vector builds the given function", "statement": "from_vector(t) evaluates on x to the entry of t at the mixed-radix position of x (last level least significant), for every truth vector of the right length.", "quantifier": "all truth vectors, domains, orders", "why_tests_cant": "Exponentially many vectors; stack algorithm with GC during construction.", "anchors": ["libteddy/details/diagram_manager.hpp:from_vector"]}
{"id": "C12", "title": "Truth-vector round trip", "statement": "to_vector(from_vector(t)) = t and from_vector(to_vector(d)) equals d.", "quantifier": "all vectors and diagrams; the comparison of diagrams in histories without reordering (see C44)", "why_tests_cant": "Same as above.", "anchors": ["libteddy/details/diagram_manager.hpp:from_vector", "libteddy/details/diagram_manager.hpp:to_vector", "libteddy/details/diagram_manager.hpp:to_vector_g"]}
{"id": "C13", "title": "Folds agree with iterated application", "statement": "left_fold<Op> over a non-empty range evaluates to the left-nested iterated Op, and tree_fold<Op> gives the same function for associative Op, for any number of diagrams.", "quantifier": "all ranges, all associative operations", "why_tests_cant": "In-place pairing with odd leftovers at every length.", "anchors": ["libteddy/details/diagram_manager.hpp:left_fold", "libteddy/details/diagram_manager.hpp:tree_fold"]}
{"id": "C14", "title": "Garbage collection is invisible", "statement": "force_gc, and any automatic collection in the middle of an operation, never changes what a live diagram evaluates to nor which diagrams are equal, and never frees a node that is still needed by a live diagram or by the running operation.", "quantifier": "all states and points of an operation at which the pool can run out", "why_tests_cant": "Collections happen at arbitrary allocation points; tests almost never exhaust the pool.", "anchors": ["libteddy/details/node_manager.hpp:force_gc", "libteddy/details/node_manager.hpp:collect_garbage", "libteddy/details/node_manager.hpp:make_new_node"]}
{"id": "C15", "title": "Garbage collection is complete", "statement": "After force_gc the nodes kept are exactly those reachable from live diagrams (when no operation left a mark behind); get_node_count() equals their number.", "quantifier": "all states", "why_tests_cant": "Quantifies over all histories.", "anchors": ["libteddy/details/node_manager.hpp:collect_garbage", "libteddy/details/node_manager.hpp:get_node_count"]}
{"id": "C16", "title": "Diagram handles count references", "statement": "After any sequence of handle copies, moves, assignments and destructions, a node is referenced once for each live handle and each parent; dropping all handles and collecting garbage frees all nodes.", "quantifier": "all histories of handles", "why_tests_cant": "Leaks and double frees show only for particular histories.", "anchors": ["libteddy/details/diagram.hpp:diagram", "libteddy/details/node.hpp:inc_ref_count", "libteddy/details/node.hpp:dec_ref_count"]}
{"id": "C17", "title": "Reordering preserves functions", "statement": "force_reorder changes neither what any live diagram evaluates to nor the set of live diagrams.", "quantifier": "all states, all node tables, all sifting decisions", "why_tests_cant": "Rewrites nodes in place while freeing others; must hold for every graph.", "anchors": ["libteddy/details/node_manager.hpp:sift_variables", "libteddy/details/node_manager.hpp:swap_variable_with_next", "libteddy/details/node_manager.hpp:swap_node_with_next", "libteddy/details/diagram_manager.hpp:force_reorder"]}
{"id": "C18", "title": "Variable order stays a permutation", "statement": "After any sequence of calls, get_order() is a permutation of the variable indices and level/index lookups are mutually inverse; each diagram's nodes respect it.", "quantifier": "all histories including reordering", "why_tests_cant": "Quantifies over histories.", "anchors": ["libteddy/details/node_manager.hpp:get_order", "libteddy/details/node_manager.hpp:get_level", "libteddy/details/node_manager.hpp:get_index", "libteddy/details/node_manager.hpp:sift_variables"]}
{"id": "C19", "title": "apply is right after reordering", "statement": "After force_reorder, apply still returns a diagram of the pointwise operation.", "quantifier": "all histories containing force_reorder", "why_tests_cant": "Depends on stale cache entries whose addresses were reused.", "anchors": ["libteddy/details/diagram_manager.hpp:force_reorder", "libteddy/details/node_manager.hpp:sift_variables", "libteddy/details/node_manager.hpp:run_deferred", "libteddy/details/node_manager.hpp:cache_find"]}
{"id": "C20", "title": "Different operations never share cached results", "statement": "Applying two different operations (including PLUS or MULTIPLIES with two different moduli) to the same operands gives each its own result in any order of calls.", "quantifier": "all pairs of operations and operands", "why_tests_cant": "The clash needs two operations with one id on the same operands in one manager.", "anchors": ["libteddy/details/operators.hpp:PLUS", "libteddy/details/operators.hpp:MULTIPLIES", "libteddy/details/operators.hpp:MAXB", "libteddy/details/hash_tables.hpp:apply_cache"]}
{"id": "C21", "title": "Operations are total on all intermediate operands", "statement": "The short-circuit evaluation of each shipped operation has defined behaviour on every pair of terminal values and the internal not-yet-known value, returns the final result early only if every completion gives that result, and operations flagged commutative are commutative.", "quantifier": "all operations and value pairs", "why_tests_cant": "Signed overflow and early-exit mistakes are invisible unless sanitizers hit them.", "anchors": ["libteddy/details/operators.hpp:operators"]}
{"id": "C22", "title": "dependency set", "statement": "get_dependency_set(d) lists exactly the variables on which d essentially depends, each once (without reordering).", "quantifier": "all diagrams", "why_tests_cant": "Relies on canonicity and on a complete traversal for every shape and mark state.", "anchors": ["libteddy/details/diagram_manager.hpp:get_dependency_set", "libteddy/details/diagram_manager.hpp:get_dependency_set_g"]}
{"id": "C23", "title": "diagram node count", "statement": "get_node_count(d) equals the number of distinct nodes reachable from d, and leaves no trace in the manager.", "quantifier": "all diagrams, all histories", "why_tests_cant": "Traversal uses mark bits shared with other operations.", "anchors": ["libteddy/details/node_manager.hpp:get_node_count", "libteddy/details/node_manager.hpp:traverse_pre"]}
{"id": "C24", "title": "Read-only operations leave no trace", "statement": "satisfy_count, get_node_count, get_dependency_set, probabilities etc. restore all mark bits; and every operation that creates diagrams leaves no marks behind, so later results do not depend on earlier calls.", "quantifier": "all histories", "why_tests_cant": "A left-over mark changes the answer of a later, unrelated call only for particular sharing patterns.", "anchors": ["libteddy/details/node_manager.hpp:traverse_pre", "libteddy/details/node_manager.hpp:traverse_post", "libteddy/details/node_manager.hpp:traverse_level", "libteddy/details/diagram_manager.hpp:from_expression_tree"]}
{"id": "C25", "title": "from_expression_tree builds the expression", "statement": "The diagram made from an expression tree evaluates to the tree's value on every assignment.", "quantifier": "all expression trees and assignments, all histories (automatic reordering disabled, see C45)", "why_tests_cant": "Unbounded trees; private cache with collisions.", "anchors": ["libteddy/details/diagram_manager.hpp:from_expression_tree", "libteddy/details/diagram_manager.hpp:from_expression_tree_impl", "libteddy/details/diagram_manager.hpp:apply_n_impl"]}
{"id": "C26", "title": "from_pla builds the cover", "statement": "from_pla gives for output j the disjunction over lines with output 1 of the conjunction of their literals.", "quantifier": "all PLA contents", "why_tests_cant": "Unbounded files, including the all-don't-care line.", "anchors": ["libteddy/details/diagram_manager.hpp:from_pla", "libteddy/details/pla_file.hpp:pla_file"]}
{"id": "C27", "title": "PLA cube storage", "statement": "bool_cube get/set behave as an array of 2-bit values: a get returns the last value set at that position and other positions are unaffected.", "quantifier": "all sizes, positions, values", "why_tests_cant": "Bit packing across byte borders.", "anchors": ["libteddy/details/pla_file.hpp:bool_cube"]}
{"id": "C28", "title": "PLA loading", "statement": "load_file either rejects the text or returns lines whose cubes have the declared sizes and the values written in the text.", "quantifier": "all texts", "why_tests_cant": "Unbounded inputs.", "anchors": ["libteddy/details/pla_file.hpp:load_file"]}
{"id": "C29", "title": "Node probabilities are exact", "statement": "calculate_probability(s,p,d) equals the sum over all assignments with value s of the product of the variables' probabilities (each variable's probabilities summing to 1), in exact arithmetic.", "quantifier": "all diagrams, distributions, states", "why_tests_cant": "Sums over exponentially many assignments; skipped levels.", "anchors": ["libteddy/details/reliability_manager.hpp:calculate_probability", "libteddy/details/reliability_manager.hpp:calculate_ntps_post_impl"]}
{"id": "C30", "title": "Both probability algorithms agree", "statement": "calculate_probabilities followed by get_probability(s) gives the same as calculate_probability(s).", "quantifier": "all diagrams, distributions, states", "why_tests_cant": "Top-down versus bottom-up traversal over shared nodes.", "anchors": ["libteddy/details/reliability_manager.hpp:calculate_probabilities", "libteddy/details/reliability_manager.hpp:get_probability", "libteddy/details/reliability_manager.hpp:calculate_ntps_level_impl"]}
{"id": "C31", "title": "Availability and unavailability", "statement": "calculate_availability(s) is the probability of a state >= s, calculate_unavailability(s) of a state < s, and they sum to 1.", "quantifier": "all diagrams, distributions, states", "why_tests_cant": "As above; the set of summed states comes from manager state.", "anchors": ["libteddy/details/reliability_manager.hpp:calculate_availability", "libteddy/details/reliability_manager.hpp:calculate_unavailability"]}
{"id": "C32", "title": "DPLD semantics", "statement": "evaluate(dpld(var: a->b, change, d), x) is 1 iff change(evaluate(d, x[var:=a]), evaluate(d, x[var:=b])) and 0 otherwise.", "quantifier": "all diagrams, variables, changes, derivative types, assignments, histories (automatic reordering disabled, see C45)", "why_tests_cant": "Skipped levels on either side, memo keyed by node pair.", "anchors": ["libteddy/details/reliability_manager.hpp:dpld", "libteddy/details/reliability_manager.hpp:dpld_impl", "libteddy/details/dplds.hpp:dpld"]}
{"id": "C33", "title": "Extended DPLD semantics", "statement": "to_dpld_e(a,var,d) agrees with d where variable var equals a and is undefined elsewhere, on every kind of manager, with assertions on or off.", "quantifier": "all dplds, variables, assignments", "why_tests_cant": "Insertion of a level into every skipped edge; assertion on special value.", "anchors": ["libteddy/details/reliability_manager.hpp:to_dpld_e", "libteddy/details/reliability_manager.hpp:to_dpld_e_impl", "libteddy/details/node_manager.hpp:make_terminal_node"]}
{"id": "C34", "title": "Minimal cut vectors", "statement": "mcvs(d,s) lists exactly the state vectors x (other than the all-best one) with d(x) < s for which every single-component improvement reaches s; for monotone d these are the minimal cut vectors.", "quantifier": "all structure functions and states", "why_tests_cant": "All functions and all vectors.", "anchors": ["libteddy/details/reliability_manager.hpp:mcvs", "libteddy/details/reliability_manager.hpp:mcvs_g"]}
{"id": "C35", "title": "Minimal path vectors", "statement": "mpvs(d,s) lists exactly the minimal path vectors: d(x) >= s and every single-component degradation drops below s.", "quantifier": "all structure functions and states", "why_tests_cant": "As above; the bundled test compares mpvs with cut vectors.", "anchors": ["libteddy/details/reliability_manager.hpp:mpvs", "libteddy/details/reliability_manager.hpp:mpvs_g"]}
{"id": "C36", "title": "Importance measures", "statement": "structural_importance(dpld) is the fraction of assignments where the derivative is 1, state_frequency(d,s) the fraction where d = s, and birnbaum_importance the probability that the derivative is 1.", "quantifier": "all diagrams, distributions", "why_tests_cant": "Counts over all assignments.", "anchors": ["libteddy/details/reliability_manager.hpp:structural_importance", "libteddy/details/reliability_manager.hpp:state_frequency", "libteddy/details/reliability_manager.hpp:birnbaum_importance"]}
{"id": "C37", "title": "Node pool never overruns", "statement": "Node creation always returns a slot inside an allocated pool that no live node uses, for every pool size and GC ratio.", "quantifier": "all pool sizes, ratios and histories", "why_tests_cant": "Needs exact exhaustion; small pools are not tested.", "anchors": ["libteddy/details/node_pool.hpp:create", "libteddy/details/node_pool.hpp:grow", "libteddy/details/node_pool.hpp:destroy", "libteddy/details/node_manager.hpp:make_new_node"]}
{"id": "C38", "title": "Unique table behaves as a set", "statement": "find returns a stored node with the given sons iff one is stored; insert, erase, rehash, merge and iteration with erase visit/keep exactly the right nodes for any hash function.", "quantifier": "all hash functions, capacities, histories of table operations", "why_tests_cant": "Collision patterns depend on addresses.", "anchors": ["libteddy/details/hash_tables.hpp:unique_table"]}
{"id": "C39", "title": "Apply cache never invents results", "statement": "A hit returns the result of the last put with the same key that is still stored; rehashing and removing unused entries only drop or keep entries.", "quantifier": "all hash functions and histories", "why_tests_cant": "Collision patterns depend on addresses.", "anchors": ["libteddy/details/hash_tables.hpp:apply_cache"]}
{"id": "C40", "title": "sort sorts", "statement": "utils::sort returns an ordered permutation of its input for every comparison that is a strict weak order.", "quantifier": "all inputs and comparators", "why_tests_cant": "Unbounded lengths.", "anchors": ["libteddy/details/tools.hpp:sort"]}
{"id": "C41", "title": "Integer powers and domain products", "statement": "int_pow(b,e) = b^e and domain_product(l1,l2) is the product of the domain sizes of the levels, as long as they fit the result type.", "quantifier": "all bases, exponents, levels", "why_tests_cant": "Overflow boundary.", "anchors": ["libteddy/details/tools.hpp:int_pow", "libteddy/details/node_manager.hpp:domain_product"]}
{"id": "C42", "title": "Node word packing", "statement": "Mark, used and leaf flags and the reference count stored in one word are independent; counting references up and down never changes the flags.", "quantifier": "all words and all counts", "why_tests_cant": "Boundary at 2^29 references.", "anchors": ["libteddy/details/node.hpp:node"]}
{"id": "C43", "title": "Manager construction", "statement": "A manager constructed with n variables, an order and domains has one unique table per variable and mutually inverse level/index maps, for every n >= 0.", "quantifier": "all variable counts, orders", "why_tests_cant": "n=0 and n=1 are corner cases of a floating-point formula.", "anchors": ["libteddy/details/node_manager.hpp:node_manager"]}
{"id": "C44", "title": "reduce restores canonicity", "statement": "After reordering, reduce(a) and reduce(b) compare equal iff a and b evaluate equally everywhere, and reduce does not change the function.", "quantifier": "all diagrams after any reordering", "why_tests_cant": "Non-reduced graphs arise only for particular node tables.", "anchors": ["libteddy/details/diagram_manager.hpp:reduce", "libteddy/details/node_manager.hpp:swap_node_with_next"]}
{"id": "C45", "title": "Automatic reordering is safe", "statement": "With automatic reordering enabled every operation still returns a valid diagram of the right function.", "quantifier": "all histories with automatic reordering", "why_tests_cant": "The result is protected only by a mark bit while sifting rewrites nodes.", "anchors": ["libteddy/details/node_manager.hpp:run_deferred", "libteddy/details/diagram_manager.hpp:apply", "libteddy/details/node_manager.hpp:set_auto_reorder"]}
{"id": "C46", "title": "Unique-table capacities", "statement": "The capacity picked for a requested size is the first prime of the table that exceeds it (or the largest), and rehashing never loses a node.", "quantifier": "all sizes", "why_tests_cant": "Boundary at every table entry.", "anchors": ["libteddy/details/hash_tables.hpp:get_gte_capacity", "libteddy/details/hash_tables.hpp:adjust_capacity", "libteddy/details/hash_tables.hpp:rehash"]}
{"id": "C47", "title": "No use after free, no null dereference", "statement": "Every public diagram-building call on live diagrams in a well-configured manager completes without touching freed memory, dereferencing null or running out of recursion.", "quantifier": "all histories without reordering", "why_tests_cant": "Depends on GC timing.", "anchors": ["libteddy/details/node_manager.hpp:make_internal_node", "libteddy/details/diagram_manager.hpp:apply_impl"]}
{"id": "C48", "title": "MAX is lowered safely", "statement": "In fixed-domain managers apply<MAX> is replaced by a bounded maximum that short-circuits; the result is the same as plain MAX.", "quantifier": "all operands, all histories without reordering", "why_tests_cant": "Equivalence over all value pairs.", "anchors": ["libteddy/details/diagram_manager.hpp:apply", "libteddy/details/operators.hpp:MAXB"]}
{"id": "C49", "title": "Truth tables answer for the function they were built from", "statement": "A truth table constructed from domains and the vector of a function's values evaluates to the function on every element, visits every element once in lexicographic order, and lists and counts exactly the elements with a given value; its maximum is the largest defined value.", "quantifier": "all non-empty lists of positive domains whose product fits int32, all functions with a defined value", "why_tests_cant": "Domain sizes, mixed radices and offsets are unbounded.", "anchors": ["libtsl/truth_table.cpp:truth_table", "libtsl/truth_table.cpp:evaluate", "libtsl/truth_table.cpp:to_index", "libtsl/truth_table.cpp:satisfy_all", "libtsl/truth_table.cpp:satisfy_count", "libtsl/truth_table.hpp:domain_for_each"]}
{"id": "C50", "title": "Truth-table derivatives", "statement": "dpld stores, for every element, whether changing the chosen variable changes the function as asked; dpld_e does so where the variable has its original value and is undefined elsewhere.", "quantifier": "all tables, variables, value changes and change predicates", "why_tests_cant": "All functions and all change predicates.", "anchors": ["libtsl/truth_table_reliability.hpp:dpld", "libtsl/truth_table_reliability.hpp:dpld_e"]}
{"id": "C51", "title": "Truth-table reliability measures", "statement": "Probability, availability, unavailability, state frequency, structural and Birnbaum importance computed from a truth table equal their definitions for independent components.", "quantifier": "all tables, all probability matrices that cover the domains, all states (in exact arithmetic)", "why_tests_cant": "All structure functions and probabilities.", "anchors": ["libtsl/truth_table_reliability.cpp:probability", "libtsl/truth_table_reliability.cpp:availability", "libtsl/truth_table_reliability.cpp:unavailability", "libtsl/truth_table_reliability.cpp:state_frequency", "libtsl/truth_table_reliability.cpp:structural_importance", "libtsl/truth_table_reliability.cpp:birnbaum_importance"]}
{"id": "C52", "title": "Truth-table minimal cut and path vectors", "statement": "calculate_mcvs and calculate_mpvs list exactly the minimal cut and path vectors of the structure function; for monotone functions these are the greatest states below and the least states reaching the given system state.", "quantifier": "all tables in which some component has at least two states, all system states", "why_tests_cant": "All structure functions.", "anchors": ["libtsl/truth_table_reliability.cpp:calculate_mcvs", "libtsl/truth_table_reliability.cpp:calculate_mpvs"]}
{"id": "C53", "title": "Truth-table Fussell-Vesely importance", "statement": "fussell_vesely_importance is the probability of being below a minimal cut vector with the component just below the given state, divided by the unavailability.", "quantifier": "all tables, probabilities, components and states with non-zero unavailability (in exact arithmetic)", "why_tests_cant": "All structure functions and probabilities.", "anchors": ["libtsl/truth_table_reliability.cpp:fussell_vesely_importance", "libtsl/truth_table.hpp:compare"]}
{"id": "C54", "title": "Fussell-Vesely importance from a diagram", "statement": "fussell_vesely_importance(P, d, u, s, i) of a derivative d is the probability that component i is in a state below s times the probability that the state vector lies below some vector on which d is 1, divided by u.", "quantifier": "all histories, derivatives, variable orders, probabilities, components and states with non-zero unavailability (in exact arithmetic)", "why_tests_cant": "All structure functions, derivatives, orders and probabilities.", "anchors": ["libteddy/details/reliability_manager.hpp:fussell_vesely_importance", "libteddy/details/reliability_manager.hpp:to_mnf"]}
{"id": "C55", "title": "Domain iterators visit every element once", "statement": "A domain_iterator built from domain sizes, an order and fixed values visits every element of the domain of the non-fixed variables exactly once, with the variable order[0] changing most often and the fixed variables keeping their values, and then compares equal to the end iterator.", "quantifier": "all domain sizes, orders and sets of fixed values", "why_tests_cant": "Number of domains, orders and fixed values is unbounded.", "anchors": ["libtsl/iterators.hpp:domain_iterator", "libtsl/iterators.cpp:domain_iterator::operator++"]}
{"id": "C56", "title": "Expressions and their diagrams agree", "statement": "evaluate_expression of a min-max expression (or an expression tree) is the maximum of the minima it denotes; the diagram made by make_diagram, and the one made by from_vector from an evaluating_iterator over the manager's domains and order, evaluate to the same value for every assignment; diagrams made before do not change.", "quantifier": "all expressions, managers, orders, histories (automatic reordering disabled, see C45), fold types and assignments", "why_tests_cant": "All expressions and all manager histories.", "anchors": ["libtsl/expressions.cpp:evaluate_expression", "libtsl/generators.hpp:make_diagram", "libtsl/iterators.hpp:evaluating_iterator"]}
{"id": "C57", "title": "Generated expressions are well-formed", "statement": "make_expression_tree(n) returns a tree whose leaves are exactly the variables 0..n-1, each once; make_minmax_expression(n, t, s) returns t terms of s variables with indices below n.", "quantifier": "all sizes, all sequences of random numbers, all orders of argument evaluation", "why_tests_cant": "All seeds and all compilers' evaluation orders.", "anchors": ["libtsl/expressions.cpp:make_expression_tree", "libtsl/expressions.cpp:make_minmax_expression"]}
{"id": "C58", "title": "Generated probability matrices are distributions", "statement": "Every row of make_probability_matrix<M>(domains) has non-negative entries that sum to one, with zeros beyond the domain of the variable.", "quantifier": "all domains of at most M values and all random numbers not all zero (in exact arithmetic)", "why_tests_cant": "All seeds and domains.", "anchors": ["libtsl/generators.hpp:make_probability_matrix"]}
{"id": "C59", "title": "Reordering does not add nodes", "statement": "If only nodes of live diagrams exist, get_node_count() after force_reorder() is at most what it was before.", "quantifier": "all histories, diagrams and variable orders", "why_tests_cant": "Sifting is a heuristic whose effect depends on all live diagrams and the order.", "anchors": ["libteddy/details/diagram_manager.hpp:force_reorder", "libteddy/details/node_manager.hpp:sift_variables"]}
{"id": "C60", "title": "Settings do not influence answers", "statement": "The same program gets the same answers from managers that differ only in pool sizes, hash functions (seeds) and where nodes are allocated; in particular the number and moments of garbage collections and the hits of the apply cache are invisible.", "quantifier": "all programs without reordering, all pool sizes, hash functions and allocations", "why_tests_cant": "A hyperproperty over pairs of executions; collisions and collections happen at program- and platform-dependent moments.", "anchors": ["libteddy/details/node_manager.hpp", "libteddy/details/hash_tables.hpp", "libteddy/details/diagram_manager.hpp"]}
{"id": "C61", "title": "Sizes of results", "statement": "The diagram apply returns has at most as many nodes as the product of the numbers of nodes of the operands; transform and get_cofactor return diagrams with at most as many nodes as the operand.", "quantifier": "all diagrams of canonical managers, all operations (each the only one used with its id, see C20)", "why_tests_cant": "A bound for all diagrams.", "anchors": ["libteddy/details/diagram_manager.hpp:apply", "libteddy/details/diagram_manager.hpp:transform", "libteddy/details/diagram_manager.hpp:get_cofactor", "libteddy/details/diagram_manager.hpp:get_node_count"]}
{"id": "C62", "title": "The n-queens example counts the solutions", "statement": "The shipped program n_queens builds, for every n, a diagram that is 1 on exactly the boards with n queens that do not attack each other, and prints the number of these boards as the number of solutions.", "quantifier": "all n, all boards, all hash functions and node addresses", "why_tests_cant": "The diagram has n*n variables; a test looks at a few n. The program goes wrong for nine queens and more.", "anchors": ["examples/n_queens.cpp:solve", "libteddy/details/diagram_manager.hpp:satisfy_count", "libteddy/details/node_manager.hpp:domain_product"]}
{"id": "C63", "title": "Symbolic availability agrees with numeric availability", "statement": "The expression returned by symbolic_availability, evaluated at time t, is the availability of the system when every component state has the probability its expression has at t; where these are numbers, it equals what calculate_availability returns for them. The manager is not changed.", "quantifier": "all reachable managers, structure functions, tables of expressions, states and times", "why_tests_cant": "Tests compare a few times of one system; the claim is about all systems, expressions and times, and about histories that leave marks on nodes.", "anchors": ["libteddy/details/reliability_manager.hpp:symbolic_availability", "libteddy/details/probabilities.hpp:expression", "examples/time_reliability.cpp:main"]}
{"id": "C64", "title": "Distributions over time", "statement": "After at_time(ps, t) every distribution converts to its value at t whatever was set before; a symbolic distribution made with the same arguments has the same value at every time; the value of exponential is a probability.", "quantifier": "all distributions, parameters, times and sequences of set_t", "why_tests_cant": "Values over a continuum of times and parameters; the shipped example uses weibull(1, 1), for which the exchanged arguments do not show.", "anchors": ["libteddy/details/probabilities.hpp:at_time", "libteddy/details/probabilities.hpp:exponential", "libteddy/details/probabilities.hpp:weibull"]}
{"id": "C65", "title": "Printed graphs show the functions", "statement": "The graph printed by to_dot_graph for a diagram has one root; following, from the root, the arcs for the values of the variables leads to exactly one square, labelled with the value of the function; the printed text determines the function; node count and levels agree with get_node_count and get_order; the graph of the whole manager contains every node once and shows every diagram.", "quantifier": "all reachable states, diagrams, assignments, orders and placements of nodes in memory", "why_tests_cant": "Graphs contain addresses and are not compared in tests; every node of every diagram and all histories (garbage collection, reordering, left-over marks) matter.", "anchors": ["libteddy/details/diagram_manager.hpp:to_dot_graph", "libteddy/details/node_manager.hpp:to_dot_graph_common", "libteddy/details/node_manager.hpp:for_each_node"]}
{"id": "C66", "title": "Housekeeping does not influence answers", "statement": "Inserting, removing or moving calls of force_gc, clear_cache, set_gc_ratio and set_cache_ratio in a program, or changing their arguments within the documented ranges, changes no answer to any other call, except the number of nodes the manager holds and the order in which a dependency set is listed.", "quantifier": "all pairs of programs without forced reordering that differ only in these calls, on managers that may also differ as in C60", "why_tests_cant": "A hyperproperty over pairs of executions: every position of every housekeeping call in every program.", "anchors": ["libteddy/details/diagram_manager.hpp:force_gc", "libteddy/details/diagram_manager.hpp:clear_cache", "libteddy/details/diagram_manager.hpp:set_gc_ratio", "libteddy/details/diagram_manager.hpp:set_cache_ratio"]}
{"id": "C67", "title": "Truth tables and diagrams agree", "statement": "A truth table of libtsl and a diagram of libteddy that represent the same function (for instance the table constructed from what to_vector returns) give the same answers: evaluate, satisfy_count, satisfy_all, probability, availability, unavailability, state_frequency, derivatives, structural, Birnbaum and Fussell-Vesely importance, minimal cut and path vectors.", "quantifier": "all functions, domains, probabilities, states, histories and variable orders", "why_tests_cant": "The shipped tests use the tables as the oracle on random samples; that both implementations agree on every function is what makes the oracle trustworthy.", "anchors": ["libtsl/truth_table.hpp", "libtsl/truth_table_reliability.hpp", "libteddy/details/reliability_manager.hpp", "tests/reliability.test.cpp"]}
{"id": "C68", "title": "Binary overloads", "statement": "For binary systems the overloads that take one probability per component return the probability that the system works (calculate_probability, calculate_availability, get_availability after calculate_probabilities), those for unavailability its complement; the results are from 0 to 1, and better components never lower the availability of a monotone system.", "quantifier": "all binary systems, vectors of probabilities and histories", "why_tests_cant": "A continuum of probabilities; all functions and states of the manager.", "anchors": ["libteddy/details/reliability_manager.hpp:calculate_availability", "libteddy/details/reliability_manager.hpp:get_availability", "libteddy/details/reliability_manager.hpp:calculate_unavailability", "libteddy/details/probabilities.hpp:prob_vector_wrap"]}
{"id": "C69", "title": "The role of one component", "statement": "The availability is the mean over the states of a component of the availabilities with the component in that state for certain; for monotone systems Birnbaum's importance of the derivative (type 3 decrease) is the difference of two such availabilities; structural importance and state frequency are Birnbaum's importance and the probability for equally likely states.", "quantifier": "all systems, components, states, probabilities that sum to one and histories", "why_tests_cant": "Relates answers of different algorithms (post-order and level traversal, derivative, counting) on every diagram and every distribution.", "anchors": ["libteddy/details/reliability_manager.hpp:birnbaum_importance", "libteddy/details/reliability_manager.hpp:structural_importance", "libteddy/details/reliability_manager.hpp:calculate_availability", "libteddy/details/reliability_manager.hpp:dpld"]}
{"id": "C70", "title": "Probabilities in floating point", "statement": "In double arithmetic with rounding to nearest, calculate_probability, calculate_availability and calculate_unavailability return numbers whose distance from the exact sum of products of the numbers given is at most 2n((D+1)u + 2d) times that sum, up to underflow, for n variables with at most D values, unit roundoff u = 2^-53 and rows that sum to one up to d; what get_probability, get_availability and get_unavailability return after calculate_probabilities is off by at most 2((2D+2)Nu + 2nd) times the sum, for a diagram of N nodes. If the numbers given are themselves roundings of the intended probabilities, the results are correspondingly close to the intended ones.", "quantifier": "all functions, matrices of doubles whose rows nearly sum to one, states, histories and variable orders", "why_tests_cant": "Tests compare with a tolerance on samples; a bound for the accumulated error must hold for all diagrams, orders of summation and probabilities.", "anchors": ["libteddy/details/reliability_manager.hpp:calculate_probability", "libteddy/details/reliability_manager.hpp:calculate_availability", "libteddy/details/reliability_manager.hpp:calculate_unavailability", "libteddy/details/reliability_manager.hpp:calculate_ntps_post_impl", "libteddy/details/reliability_manager.hpp:calculate_probabilities", "libteddy/details/reliability_manager.hpp:get_availability", "libteddy/details/reliability_manager.hpp:calculate_ntps_level_impl"]}
{"id": "C71", "title": "Counts of reliability managers", "statement": "satisfy_count of a reliability manager, which keeps counts in doubles, returns the exact number of assignments, and state_frequency the double nearest to the exact fraction.", "quantifier": "all functions, values, domains whose number of assignments fits the return type, histories", "why_tests_cant": "The counts are exact as long as they are small; the question is what happens for every number of variables.", "anchors": ["libteddy/details/diagram_manager.hpp:satisfy_count", "libteddy/details/reliability_manager.hpp:state_frequency"]}
{"id": "C72", "title": "All memory is released, once", "statement": "When the handles of a program and then its manager are destroyed, every block of memory the manager has obtained (for nodes, their arrays of sons, the unique tables and the cache) has been released. Nothing is released twice, and no destructor runs on memory that holds no object.", "quantifier": "all programs of API calls that reach their end, all domains, pool sizes and settings, including programs that misuse the interface and programs with automatic reordering", "why_tests_cant": "Nodes are reused, pools grow and arrays change owner when levels are swapped; whether each is released once depends on the whole history.", "anchors": ["libteddy/details/node_pool.hpp:~node_pool", "libteddy/details/node_pool.hpp:create", "libteddy/details/node_pool.hpp:grow", "libteddy/details/node.hpp:~node", "libteddy/details/node.hpp:set_sons", "libteddy/details/node_manager.hpp:make_internal_node", "libteddy/details/node_manager.hpp:swap_node_with_next", "libteddy/details/hash_tables.hpp:unique_table::rehash", "libteddy/details/hash_tables.hpp:apply_cache::rehash", "libteddy/details/hash_tables.hpp:~unique_table", "libteddy/details/hash_tables.hpp:~apply_cache"]}
{"id": "C73", "title": "satisfy_one returns an assignment in every container", "statement": "satisfy_one<Vars>(v, d) returns, for every container type it accepts (std::vector or std::array), an assignment of all variables within their domains for which d has value v, or nothing if there is none.", "quantifier": "all reachable managers, all diagrams, all values, all previous contents of memory", "why_tests_cant": "Uninitialised memory often happens to be zero; and whether a variable is left out of the path depends on the function.", "anchors": ["libteddy/details/diagram_manager.hpp:satisfy_one", "libteddy/details/diagram_manager.hpp:satisfy_one_impl", "libteddy/details/diagram_manager.hpp:out_var_values"]}
{"id": "C74", "title": "Walks along the chains end and meet every node once", "statement": "Nodes of a unique table and free nodes of the pool are linked by a pointer stored in the nodes themselves. At every moment between API calls, a walk from a bucket ends; the walks from all buckets of a variable together meet each node of that variable exactly once and no other node, each from the bucket its hash selects. A walk along the free nodes ends and meets each returned node exactly once. A lookup ends and finds a node with given variable and sons if there is one. No call walks for ever, follows a null pointer or loses nodes although insertion, garbage collection, resizing and reordering rewrite these pointers while walking along them.", "quantifier": "all reachable managers, all hash functions, all histories of calls including garbage collections, table resizing and reordering", "why_tests_cant": "Whether a chain is cut or closed into a cycle depends on which nodes collide in a bucket, that is on addresses, and on the order in which they were inserted, erased and reused.", "anchors": ["libteddy/details/hash_tables.hpp:unique_table::find", "libteddy/details/hash_tables.hpp:unique_table::insert_impl", "libteddy/details/hash_tables.hpp:unique_table::erase_impl", "libteddy/details/hash_tables.hpp:unique_table::rehash", "libteddy/details/hash_tables.hpp:unique_table::merge", "libteddy/details/hash_tables.hpp:unique_table::clear", "libteddy/details/hash_tables.hpp:unique_table_iterator", "libteddy/details/node_pool.hpp:create", "libteddy/details/node_pool.hpp:destroy", "libteddy/details/node_manager.hpp:collect_garbage", "libteddy/details/node_manager.hpp:swap_variable_with_next"]}
{"id": "C75", "title": "The shipped example programs compute what they announce", "statement": "The example of basic usage in the README runs to its end: its two assertions hold, and it counts and lists the seven assignments that satisfy x0 x1 + x2 x3. The example of reliability analysis in the README computes availability 0.9916, unavailability 0.0084, the minimal cut vectors (0,2,0,0) and (1,0,0,0) and structural importance 2/9. The example soft_x computes, for max(x0, min(x1, x2)), availability 0.956, Birnbaum importance 0.44, frequency 11/27 and the minimal cut vectors (0,0,2) and (0,2,0). The example time_reliability prints an expression equal to the availability of x0 and (x1 or x2) at every time. This does not depend on where nodes are allocated or how they are hashed, nor on whether assertions are compiled in.", "quantifier": "all hash functions, all addresses of nodes, assertions on and off, all times", "why_tests_cant": "A run of an example shows one address layout, one setting of assertions and ten times; users copy the examples into other settings.", "anchors": ["examples/readme.cpp", "examples/soft_x.cpp", "examples/time_reliability.cpp", "libteddy/core.hpp:bdd_manager", "libteddy/reliability.hpp:mss_manager", "libteddy/reliability.hpp:ifmss_manager", "libteddy/details/diagram_manager.hpp:default_or_fwd"]}
{"id": "C76", "title": "The unit tests of the core pass for every seed", "statement": "Each test of the core (evaluate, fold, gc, satisfy_count, satisfy_one, satisfy_all, operators_1, operators_2, cofactor, one_var_sift, auto_var_sift, from_vector, to_vector, from_expression) meets all its requirements on each of its four fixtures (binary, three-valued, mixed domains, mixed domains with bounded nodes), whatever order of the variables, domains and expression the random generator delivers, wherever nodes are allocated and however they are hashed, with and without assertions, and without undefined behaviour.", "quantifier": "all four fixtures, all variable orders, all domains of two or three values, all random expressions, all hash functions and addresses, assertions on and off", "why_tests_cant": "The tests run with one seed (911) on one platform; a changed seed, standard library or allocator gives other orders, domains and expressions.", "anchors": ["tests/core.test.cpp", "tests/setup.hpp", "libtsl/iterators.cpp:domain_iterator", "libtsl/expressions.cpp:make_minmax_expression", "libtsl/generators.hpp:make_diagram", "libteddy/details/operators.hpp:PLUS", "libteddy/details/operators.hpp:MULTIPLIES"]}
{"id": "C77", "title": "The unit tests of the reliability functions pass for every seed", "statement": "Each test of the reliability functions (probabilities, availabilities, unavailabilities, state frequencies, structural and Birnbaum importances, minimal cut vectors, basic and integrated derivatives of the three types) finds that the diagram and the truth table of the same random system give the same answers, on each of its four fixtures (binary, three-valued, mixed domains, mixed domains with bounded nodes), whatever order, domains, expression tree and probabilities the random generator delivers, with and without assertions, and without undefined behaviour.", "quantifier": "all four fixtures, all variable orders, all domains of two or three values, all random expression trees, all component state probabilities, all hash functions and addresses, assertions on and off", "why_tests_cant": "The tests run with one seed on one platform and compare a single random system per fixture.", "anchors": ["tests/reliability.test.cpp", "tests/setup.hpp", "libtsl/truth_table.cpp", "libtsl/truth_table_reliability.cpp", "libtsl/expressions.cpp:make_expression_tree", "libteddy/details/reliability_manager.hpp:dpld", "libteddy/details/reliability_manager.hpp:to_dpld_e", "libteddy/details/reliability_manager.hpp:mcvs"]}
{"id": "C78", "title": "Fussell-Vesely importance of a coherent system", "statement": "For a coherent system f, a state s and a component i, fussell_vesely_importance applied to the derivative of f for a drop of component i from v to v - 1 that takes the system from s or above to below s, with the unavailability of f, returns the probability that the states of the components lie below a minimal cut vector for s in which component i is in state v - 1, divided by the probability that the system is below s; whatever calls were made before.", "quantifier": "all coherent systems, all orders of the variables, all domains, all components, states and distributions, all histories of calls", "why_tests_cant": "The unit test draws series-parallel systems with every component once, for which the computation is right; it is wrong for other coherent systems.", "anchors": ["libteddy/details/reliability_manager.hpp:fussell_vesely_importance", "libteddy/details/reliability_manager.hpp:to_mnf", "libteddy/details/reliability_manager.hpp:to_mnf_impl", "libteddy/details/reliability_manager.hpp:dpld"]}
{"id": "C79", "title": "Derivatives from cofactors and from dpld are the same", "statement": "The diagram made by taking the cofactors for the values 0 and 1 of a variable and combining them (with transform and AND for derivatives of type 3, with LESS for type 2), as experiments/dplds.cpp does, is equal to the one returned by dpld for the change from 0 to 1; other diagrams are not affected. The experiment itself runs without undefined behaviour and failed assertions and prints the size of the reduced diagram of each expression.", "quantifier": "all histories of calls without reordering (each operation the only one used with its id, see C20), all diagrams, all variables with at least two values, all outcomes of the random generators, all hash functions and addresses", "why_tests_cant": "The experiment measures times and never compares the diagrams; the two ways use different recursions, caches and garbage collections, so agreement on some diagrams says nothing about others.", "anchors": ["experiments/dplds.cpp:dpld_type3_naive", "experiments/dplds.cpp:dpld_type2_naive", "experiments/dplds.cpp:main", "libteddy/details/reliability_manager.hpp:dpld", "libteddy/details/diagram_manager.hpp:get_cofactor", "libteddy/details/diagram_manager.hpp:transform", "libteddy/details/dplds.hpp:type_3_increase"]}
{"id": "C80", "title": "Diagrams can be keys of unordered containers", "statement": "Handles that compare equal have equal hashes (std::hash). The hash of a handle and the results of comparing it never change while the handle itself is not assigned, moved, swapped or destroyed, whatever else is called, including garbage collection and reordering. A diagram made later, without reordering in between, compares equal to the handle, and has the hash computed before, exactly when it represents the same function. swap exchanges two diagrams and affects nothing else.", "quantifier": "all histories of calls, all diagrams, all hash functions and addresses", "why_tests_cant": "A container computes the hash of a key once; whether it is still valid after collections, reordering and pool growth depends on the whole history.", "anchors": ["libteddy/details/diagram.hpp:std::hash", "libteddy/details/diagram.hpp:std::equal_to", "libteddy/details/diagram.hpp:swap", "libteddy/details/tools.hpp:do_hash"]}
{"id": "C81", "title": "Documented running times", "statement": "As documented: evaluate takes time proportional to the number of variables at most; satisfy_count and satisfy_one take time proportional to the number of nodes of the diagram at most; satisfy_all takes time proportional to the number of variables times the number of assignments it finds.", "quantifier": "all managers, all histories, all diagrams, values and assignments", "why_tests_cant": "A test times a few diagrams; that no family of diagrams needs more steps than documented is a statement about all diagrams, and the exponential cases are those where nothing is found.", "anchors": ["libteddy/details/diagram_manager.hpp: evaluate, satisfy_count, satisfy_one, satisfy_one_impl, satisfy_all, satisfy_all_impl and their documentation (406-490)"]}
{"id": "C82", "title": "Exceptions thrown by the function given to transform", "statement": "If the function given to transform throws an exception for a value of the diagram and the program catches it, then the manager and all diagrams are as before the call: every diagram represents the same function, later calls return what they would have returned, and no node stays in use because of the call. If the function throws for no value of the diagram, transform returns the transformed diagram.", "quantifier": "all managers, all histories before and after the call (with any number of such exceptions), all diagrams and all partial functions", "why_tests_cant": "The exception can leave the recursion at any node of any diagram, and whether something is left behind shows only in later calls, of which there are unboundedly many sequences.", "anchors": ["libteddy/details/diagram_manager.hpp: transform, transform_impl", "libteddy/details/node_manager.hpp: make_terminal_node, make_internal_node, collect_garbage"]}
{"id": "C83", "title": "Sifting puts each variable on the best level it tried", "statement": "force_reorder() takes the variables one after another, those with more nodes first. Each variable is moved to every level, while the other variables keep their order, and the number of nodes is counted each time; in the end it is on the level with the lowest count, and on the one tried first if several levels have that count.", "quantifier": "all managers, all reachable states, all variables and levels", "why_tests_cant": "The counts depend on all nodes in the manager and on the order, and every level of every variable has to be tried, for orders and diagrams without bound.", "anchors": ["libteddy/details/diagram_manager.hpp: force_reorder", "libteddy/details/node_manager.hpp: sift_variables, swap_variable_with_next"]}
{"id": "C84", "title": "transform, negate, reduce and get_cofactor look at every node once", "statement": "transform, negate, reduce and get_cofactor (for one or several variables) of a diagram with k nodes make at most 1 + D*k calls of their recursive function, where D is the largest domain. So they do not look at all paths of the diagram, and transform calls the function of the user at most 1 + D*k times.", "quantifier": "all managers, all reachable states (also after reordering, and with automatic reordering if the call returns), all diagrams, functions, variables and values", "why_tests_cant": "The number of paths of a diagram can be exponential in the number of nodes. A test sees the running time of a few diagrams only, and a missing entry in the table of results shows only on diagrams with much sharing.", "anchors": ["libteddy/details/diagram_manager.hpp: transform, transform_impl, negate, reduce, get_cofactor, get_cofactor_impl"]}
{"id": "C85", "title": "When another pool of nodes is allocated", "statement": "When a node is needed and the pools have no free node left, garbage is collected; another pool is allocated exactly if fewer nodes than ratio times the size of the initial pool were collected (set_gc_ratio). While there is a free node neither happens.", "quantifier": "all managers, ratios and reachable states without automatic reordering", "why_tests_cant": "The allocation cannot be seen through the interface, and which nodes are garbage when the pools are used up depends on the whole history.", "anchors": ["libteddy/details/diagram_manager.hpp: set_gc_ratio", "libteddy/details/node_manager.hpp: make_new_node", "README.md: Memory management"]}
{"id": "C86", "title": "transform, negate and reduce never return more nodes than they get", "statement": "get_node_count of the diagram that transform, negate or reduce returns is at most get_node_count of the operand, also when reordering has left redundant nodes and several nodes with the same sons in the operand.", "quantifier": "all managers without automatic reordering, all reachable states without marks left behind (see C24), also after reordering; all diagrams and functions of the user", "why_tests_cant": "The size of a diagram after reordering depends on the history; a result that repeats nodes is still correct, only larger.", "anchors": ["libteddy/details/diagram_manager.hpp: transform, transform_impl, negate, reduce, get_node_count"]}
{"id": "C87", "title": "get_cofactor at most doubles the number of nodes", "statement": "get_node_count of the diagram that get_cofactor returns, for one variable or several, is at most twice get_node_count of the operand, also when reordering has left redundant nodes and several nodes with the same sons in the operand.", "quantifier": "all managers without automatic reordering, all reachable states without marks left behind (see C24), also after reordering; all diagrams, variables and values", "why_tests_cant": "The result mixes nodes of the operand with rebuilt ones; how many of each there are depends on what earlier reorderings left behind.", "anchors": ["libteddy/details/diagram_manager.hpp: get_cofactor, get_cofactor_impl, get_node_count"]}
{"id": "C88", "title": "apply takes polynomial time", "statement": "apply calls its recursive function at most 1 + D·k·l times, where k and l are the numbers of nodes of the operands and D is the largest domain: results for pairs of nodes are computed once.", "quantifier": "all managers, all addresses of nodes, all reachable states, all operations and operands", "why_tests_cant": "Which results the cache loses depends on the addresses of the nodes; the answer of apply is the same, only the time differs.", "anchors": ["libteddy/details/diagram_manager.hpp: apply, apply_impl", "libteddy/details/hash_tables.hpp: apply_cache::find, apply_cache::put"]}
