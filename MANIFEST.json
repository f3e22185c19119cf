{
 "claims": [
  {
   "property": "C01",
   "status": "partial",
   "theorems": [
    "Teddy.Properties.C01_apply_partial",
    "Teddy.Properties.C01_apply_n",
    "Teddy.Properties.C01_violated"
   ],
   "note": "For every reachable state with a valid apply cache (cache validity is lost only by reordering, C19), automatic reordering disabled (C45), for every operation that is the only one used with its id and does not overflow. False in full: PLUS<2> and PLUS<3> in one program (C01_violated, see C20), overflow of PLUS and MULTIPLIES (C21)."
  },
  {
   "property": "C02",
   "status": "proved",
   "theorems": [
    "Teddy.Properties.C02_equality"
   ],
   "note": "Without reordering in the history (see C44)."
  },
  {
   "property": "C03",
   "status": "proved",
   "theorems": [
    "Teddy.Properties.C03_evaluate",
    "Teddy.Properties.C03_total"
   ],
   "note": ""
  },
  {
   "property": "C04",
   "status": "proved",
   "theorems": [
    "Teddy.Properties.C04_constant",
    "Teddy.Properties.C04_variable",
    "Teddy.Properties.C04_variable_not"
   ],
   "note": ""
  },
  {
   "property": "C05",
   "status": "proved",
   "theorems": [
    "Teddy.Properties.C05_transform",
    "Teddy.Properties.C05_negate"
   ],
   "note": "Automatic reordering disabled; with it see C45."
  },
  {
   "property": "C06",
   "status": "proved",
   "theorems": [
    "Teddy.Properties.C06_cofactor"
   ],
   "note": ""
  },
  {
   "property": "C07",
   "status": "proved",
   "theorems": [
    "Teddy.Properties.C07_cofactors"
   ],
   "note": ""
  },
  {
   "property": "C08",
   "status": "partial",
   "theorems": [
    "Teddy.Properties.C08_satisfy_count_partial",
    "Teddy.Properties.C08_violated",
    "Teddy.Properties.C08_violated_shift",
    "Teddy.Properties.C08_wide_partial",
    "Teddy.Properties.C08_violated_wide",
    "Teddy.Properties.C08_reduced_partial",
    "Teddy.Properties.C24_from_expression_partial",
    "Teddy.Properties.C24_dpld_partial"
   ],
   "note": "False after from_expression_tree, which leaves marks behind (program in Violations.lean); proved for all other histories. Also false when the number of variables is too large for the integer types, even if the count itself is 0 (C08_violated_shift: 64 binary variables). C08_wide_partial replaces the bound on the total number of assignments by bounds on the answer and on runs of skipped variables; C08_violated_wide shows that for binary variables a run of 64 skipped variables always overflows. After any history it is right for the result of reduce (C08_reduced_partial). After any history it is also right for a diagram that from_expression_tree or dpld returned (C24_from_expression_partial, C24_dpld_partial): the left-over marks are never on its nodes."
  },
  {
   "property": "C09",
   "status": "proved",
   "theorems": [
    "Teddy.Properties.C09_satisfy_all"
   ],
   "note": ""
  },
  {
   "property": "C10",
   "status": "proved",
   "theorems": [
    "Teddy.Properties.C10_satisfy_one",
    "Teddy.Properties.C10_search"
   ],
   "note": ""
  },
  {
   "property": "C11",
   "status": "proved",
   "theorems": [
    "Teddy.Properties.C11_from_vector"
   ],
   "note": ""
  },
  {
   "property": "C12",
   "status": "proved",
   "theorems": [
    "Teddy.Properties.C12_to_vector",
    "Teddy.Properties.C12_vector_diagram_vector",
    "Teddy.Properties.C12_diagram_vector_diagram"
   ],
   "note": "C12_diagram_vector_diagram compares handles, hence histories without reordering (C44)."
  },
  {
   "property": "C13",
   "status": "partial",
   "theorems": [
    "Teddy.Properties.C13_left_fold_partial",
    "Teddy.Properties.C13_tree_fold_partial",
    "Teddy.Properties.C13_violated"
   ],
   "note": "As C01: false when differently parameterised PLUS, MULTIPLIES or MAXB are mixed (C13_violated); proved otherwise, automatic reordering disabled (C45)."
  },
  {
   "property": "C14",
   "status": "proved",
   "theorems": [
    "Teddy.Properties.C14_force_gc"
   ],
   "note": ""
  },
  {
   "property": "C15",
   "status": "proved",
   "theorems": [
    "Teddy.Properties.C15_gc_complete",
    "Teddy.Properties.C15_kept",
    "Teddy.Properties.C15_lower_bound"
   ],
   "note": "C15_gc_complete counts the nodes in histories without reordering (or after all diagrams are reduced); C15_kept and C15_lower_bound hold in every history. All three need the absence of stale marks, see C16."
  },
  {
   "property": "C16",
   "status": "partial",
   "theorems": [
    "Teddy.Properties.C16_ref_counts",
    "Teddy.Properties.C16_all_freed_partial",
    "Teddy.Properties.C16_live_handles",
    "Teddy.Properties.C16_violated"
   ],
   "note": "Reference counts: proved for all histories. Freeing all nodes: False after from_expression_tree, which leaves marks behind (program in Violations.lean); proved for all other histories."
  },
  {
   "property": "C17",
   "status": "proved",
   "theorems": [
    "Teddy.Properties.C17_force_reorder"
   ],
   "note": "force_reorder succeeds in every reachable state and changes the function of no live diagram; includes swaps, sifting and the restoring of positions, for all tables, hash functions and pool states."
  },
  {
   "property": "C18",
   "status": "proved",
   "theorems": [
    "Teddy.Properties.C18_order",
    "Teddy.Properties.C18_lookups",
    "Teddy.Properties.C18_levels"
   ],
   "note": "All histories, including force_reorder; with automatic reordering enabled, calls that may reorder before their result is registered are excluded (C45)."
  },
  {
   "property": "C19",
   "status": "partial",
   "theorems": [
    "Teddy.Properties.C19_apply_partial",
    "Teddy.Properties.C19_violated",
    "Teddy.Properties.C19_violated_cleared"
   ],
   "note": "False of the code: force_reorder leaves dangling entries in the operation cache (C19_violated is a complete program). Proved: apply is right after force_reorder and clear_cache."
  },
  {
   "property": "C20",
   "status": "partial",
   "theorems": [
    "Teddy.Properties.C20_ids_partial",
    "Teddy.Properties.C20_two_operations_partial",
    "Teddy.Properties.C20_violated",
    "Teddy.Properties.C20_violated_alone"
   ],
   "note": "False in general: differently parameterised PLUS, MULTIPLIES, MAXB share an id."
  },
  {
   "property": "C21",
   "status": "partial",
   "theorems": [
    "Teddy.Properties.C21_values_partial",
    "Teddy.Properties.C21_bits_partial",
    "Teddy.Properties.C21_pi_conj_partial",
    "Teddy.Properties.C21_maxb_partial",
    "Teddy.Properties.C21_modular_partial",
    "Teddy.Properties.C21_boolean_tables",
    "Teddy.Properties.C21_integer_tables",
    "Teddy.Properties.C21_modular_tables",
    "Teddy.Properties.C21_plus_overflows",
    "Teddy.Properties.C21_violated",
    "Teddy.Properties.C21_constant_partial"
   ],
   "note": "False for PLUS and MULTIPLIES (signed overflow), proved for all others, for the wrapping versions, and for second operands that are constantly 0 or 1."
  },
  {
   "property": "C22",
   "status": "partial",
   "theorems": [
    "Teddy.Properties.C22_dependency_set_partial",
    "Teddy.Properties.C22_violated",
    "Teddy.Properties.C24_reduce_repairs_partial",
    "Teddy.Properties.C24_from_expression_partial",
    "Teddy.Properties.C24_dpld_partial"
   ],
   "note": "False after from_expression_tree, which leaves marks behind (program in Violations.lean); proved for all other histories. After any history it is right for a diagram returned by reduce, negate or transform (C24_transform_repairs_partial). After any history it is also right for a diagram that from_expression_tree or dpld returned (C24_from_expression_partial, C24_dpld_partial): the left-over marks are never on its nodes."
  },
  {
   "property": "C23",
   "status": "partial",
   "theorems": [
    "Teddy.Properties.C23_node_count_partial",
    "Teddy.Properties.C23_violated",
    "Teddy.Properties.C23_lower_bound",
    "Teddy.Properties.C23_reduced_partial",
    "Teddy.Properties.C24_reduce_repairs_partial",
    "Teddy.Properties.C24_from_expression_partial",
    "Teddy.Properties.C24_dpld_partial"
   ],
   "note": "False after from_expression_tree, which leaves marks behind (program in Violations.lean); proved for all other histories. After reordering the count is an upper bound of the size of the reduced diagram (C23_lower_bound), and exact for a reduced copy if no unique table is resized by reduce (C23_reduced_partial). After any history it is right for a diagram returned by reduce, negate or transform (C24_transform_repairs_partial). After any history it is also right for a diagram that from_expression_tree or dpld returned (C24_from_expression_partial, C24_dpld_partial): the left-over marks are never on its nodes."
  },
  {
   "property": "C24",
   "status": "partial",
   "theorems": [
    "Teddy.Properties.C24_queries_partial",
    "Teddy.Properties.C24_no_marks_partial",
    "Teddy.Properties.C24_clean_partial",
    "Teddy.Properties.C24_violated",
    "Teddy.Properties.C24_violated_alone",
    "Teddy.Properties.C24_transform_repairs_partial",
    "Teddy.Properties.C24_reduce_repairs_partial",
    "Teddy.Properties.C24_from_expression_partial",
    "Teddy.Properties.C24_dpld_partial"
   ],
   "note": "False in general: from_expression_tree leaves marks. A diagram returned by reduce, negate or transform has no marked nodes after any history, so any sequence of questions about it is answered correctly. After any history it is also right for a diagram that from_expression_tree or dpld returned (C24_from_expression_partial, C24_dpld_partial): the left-over marks are never on its nodes."
  },
  {
   "property": "C25",
   "status": "proved",
   "theorems": [
    "Teddy.Properties.C25_from_expression"
   ],
   "note": "Automatic reordering disabled; with it see C45."
  },
  {
   "property": "C26",
   "status": "partial",
   "theorems": [
    "Teddy.Properties.C26_cover_partial",
    "Teddy.Properties.C26_text_partial",
    "Teddy.Properties.C26_violated",
    "Teddy.Properties.C26_violated_lines"
   ],
   "note": "Proved for every history without stale cache entries, every file with at least one line whose lines with an output 1 have a literal, both ways of folding, and from the text via load_file. The full statement is false: a line of don't cares with output 1 folds an empty range, and a file without lines reads the front of an empty vector."
  },
  {
   "property": "C27",
   "status": "proved",
   "theorems": [
    "Teddy.Properties.C27_array",
    "Teddy.Properties.C27_array_any"
   ],
   "note": "For every size, every sequence of sets at positions of the cube and values 0, 1, 3 (any 2-bit value without assertions): get answers the last value set, 0 if none."
  },
  {
   "property": "C28",
   "status": "partial",
   "theorems": [
    "Teddy.Properties.C28_load_partial",
    "Teddy.Properties.C28_accepts",
    "Teddy.Properties.C28_rejects",
    "Teddy.Properties.C28_total_partial",
    "Teddy.Properties.C28_missing",
    "Teddy.Properties.C28_lines",
    "Teddy.Properties.C28_violated",
    "Teddy.Properties.C28_blanks"
   ],
   "note": "Proved for all texts: what load_file returns is what the text says, readable texts are accepted, unreadable lines rejected, and no undefined behaviour. False in full: a number of lines that is negative as a 32-bit integer makes load_file throw std::length_error (C28_violated). Streams are lists of characters; characters outside ASCII are not spaces."
  },
  {
   "property": "C29",
   "status": "partial",
   "theorems": [
    "Teddy.Properties.C29_calculate_probability_partial",
    "Teddy.Properties.C29_violated",
    "Teddy.Properties.C29_violated_negative",
    "Teddy.Properties.C24_reduce_repairs_partial",
    "Teddy.Properties.C24_from_expression_partial",
    "Teddy.Properties.C24_dpld_partial"
   ],
   "note": "Exact rational arithmetic (the code uses double). False when the diagram has the undefined terminal or the state is negative (programs in Violations.lean); proved for diagrams without undefined values and non-negative states, in states without stale marks (C24). After any history it is right for a diagram returned by reduce, negate or transform (C24_transform_repairs_partial). After any history it is also right for a diagram that from_expression_tree or dpld returned (C24_from_expression_partial, C24_dpld_partial): the left-over marks are never on its nodes."
  },
  {
   "property": "C30",
   "status": "partial",
   "theorems": [
    "Teddy.Properties.C30_get_probability_partial",
    "Teddy.Properties.C30_violated"
   ],
   "note": "Proved for get_probability directly after calculate_probabilities. False if satisfy_count runs in between: it overwrites the stored probabilities."
  },
  {
   "property": "C31",
   "status": "partial",
   "theorems": [
    "Teddy.Properties.C31_availability_partial",
    "Teddy.Properties.C31_get_availability_partial",
    "Teddy.Properties.C31_violated"
   ],
   "note": "Proved for diagrams without undefined values. get_availability reads uninitialised data if a terminal was made after calculate_probabilities (program in Violations.lean)."
  },
  {
   "property": "C32",
   "status": "proved",
   "theorems": [
    "Teddy.Properties.C32_dpld",
    "Teddy.Properties.C32_independent",
    "Teddy.Properties.C32_basic",
    "Teddy.Properties.C32_type1Decrease",
    "Teddy.Properties.C32_type1Increase",
    "Teddy.Properties.C32_type2Decrease",
    "Teddy.Properties.C32_type2Increase",
    "Teddy.Properties.C32_type3Decrease",
    "Teddy.Properties.C32_type3Increase"
   ],
   "note": "Automatic reordering disabled; with it see C45."
  },
  {
   "property": "C33",
   "status": "partial",
   "theorems": [
    "Teddy.Properties.C33_to_dpld_e_partial",
    "Teddy.Properties.C33_extended_derivative_partial",
    "Teddy.Properties.C33_violated",
    "Teddy.Properties.C33_violated_dependent",
    "Teddy.Properties.C33_violated_always"
   ],
   "note": "False on a fixed-domain manager with assertions (assertion failure) and for a diagram that tests the variable (returned unchanged); proved otherwise."
  },
  {
   "property": "C34",
   "status": "partial",
   "theorems": [
    "Teddy.Properties.C34_mcvs_partial",
    "Teddy.Properties.C34_monotone",
    "Teddy.Properties.C34_violated",
    "Teddy.Properties.C34_violated_always"
   ],
   "note": "False on a fixed-domain manager with assertions (to_dpld_e fails); proved otherwise."
  },
  {
   "property": "C35",
   "status": "partial",
   "theorems": [
    "Teddy.Properties.C35_mpvs_g_partial",
    "Teddy.Properties.C35_violated",
    "Teddy.Properties.C35_violated_other",
    "Teddy.Properties.C35_violated_worst",
    "Teddy.Properties.C34_violated_always"
   ],
   "note": "False: mpvs calls mcvs_g, and mpvs_g never lists the all-worst vector. Proved for mpvs_g and the other vectors."
  },
  {
   "property": "C36",
   "status": "partial",
   "theorems": [
    "Teddy.Properties.C36_state_frequency_partial",
    "Teddy.Properties.C36_structural_importance_partial",
    "Teddy.Properties.C36_birnbaum_importance_partial",
    "Teddy.Properties.C36_satisfy_count_partial",
    "Teddy.Properties.C36_violated",
    "Teddy.Properties.C24_reduce_repairs_partial",
    "Teddy.Properties.C24_from_expression_partial",
    "Teddy.Properties.C24_dpld_partial"
   ],
   "note": "False after from_expression_tree, which leaves marks behind (program in Violations.lean); proved for all other histories. In exact arithmetic, when the count fits into long long; birnbaum_importance for diagrams without undefined values. After any history it is right for a diagram returned by reduce, negate or transform (C24_transform_repairs_partial). After any history it is also right for a diagram that from_expression_tree or dpld returned (C24_from_expression_partial, C24_dpld_partial): the left-over marks are never on its nodes."
  },
  {
   "property": "C37",
   "status": "partial",
   "theorems": [
    "Teddy.Properties.C37_pool_partial",
    "Teddy.Properties.C37_no_overrun_partial",
    "Teddy.Properties.C37_violated",
    "Teddy.Properties.C66_violated"
   ],
   "note": "False for very small pools (C37_violated) and for garbage collection ratios that amount to less than one node, like the documented 0 (C66_violated); proved otherwise."
  },
  {
   "property": "C38",
   "status": "proved",
   "theorems": [
    "Teddy.Properties.C38_unique_table"
   ],
   "note": ""
  },
  {
   "property": "C39",
   "status": "proved",
   "theorems": [
    "Teddy.Properties.C39_apply_cache",
    "Teddy.Properties.C39_remove_unused",
    "Teddy.Properties.C39_put_find"
   ],
   "note": ""
  },
  {
   "property": "C40",
   "status": "proved",
   "theorems": [
    "Teddy.Properties.C40_sort"
   ],
   "note": "Positions are unbounded naturals (the code uses uint32)."
  },
  {
   "property": "C41",
   "status": "partial",
   "theorems": [
    "Teddy.Properties.C41_int_pow",
    "Teddy.Properties.C41_domain_product_partial",
    "Teddy.Properties.C41_overflow"
   ],
   "note": "False for fixed domains other than 2: the power is computed in int32 (3^20 overflows)."
  },
  {
   "property": "C42",
   "status": "partial",
   "theorems": [
    "Teddy.Properties.C42_fields_partial",
    "Teddy.Properties.C42_counting_partial",
    "Teddy.Properties.C42_new",
    "Teddy.Properties.C42_all",
    "Teddy.Properties.C42_violated",
    "Teddy.Properties.C42_kind"
   ],
   "note": "Proved for all sequences of flag changes and counts that keep the count within 0..2^29-1. False in full: the 2^29-th reference turns an internal node into a terminal one, and the assertion does not catch it (C42_violated)."
  },
  {
   "property": "C43",
   "status": "partial",
   "theorems": [
    "Teddy.Properties.C43_construct_partial",
    "Teddy.Properties.C43_violated_one",
    "Teddy.Properties.C43_violated_none",
    "Teddy.Properties.C43_mdd_partial",
    "Teddy.Properties.C43_bdd_partial",
    "Teddy.Properties.C43_imdd_partial",
    "Teddy.Properties.C43_ifmdd_partial",
    "Teddy.Properties.C43_domains"
   ],
   "note": "False for zero or one variable."
  },
  {
   "property": "C44",
   "status": "partial",
   "theorems": [
    "Teddy.Properties.C44_reduce_partial",
    "Teddy.Properties.C44_equal_sound_partial",
    "Teddy.Properties.C44_canonical_partial",
    "Teddy.Properties.C44_violated",
    "Teddy.Properties.C44_restore_partial"
   ],
   "note": "Reduced diagrams compare equal exactly when their functions are equal, also after reordering, provided no unique table is resized by the two reduce calls. False in full: C44_violated is a complete program in which a table is resized between two reductions of the same diagram and the results compare different (a resize reverses the chains, so a lookup finds the other of two nodes with the same sons). C44_restore_partial: reducing every live diagram, dropping the originals and collecting garbage makes the manager canonical again."
  },
  {
   "property": "C45",
   "status": "partial",
   "theorems": [
    "Teddy.Properties.C45_violated",
    "Teddy.Properties.C45_violated_off",
    "Teddy.Properties.C45_program_partial",
    "Teddy.Properties.C45_call_partial",
    "Teddy.Properties.C45_other_calls_partial",
    "Teddy.Properties.C45_cofactor_partial",
    "Teddy.Properties.C45_settled_partial",
    "Teddy.Properties.C45_violated_disabled",
    "Teddy.Properties.C45_roomy_partial"
   ],
   "note": "False of the code: the deferred reordering runs before the result of apply has a handle and may free it (complete programs; set_auto_reorder(false) does not cancel a reordering that is due). Proved: (1) programs run with automatic reordering that return without extending the node pool behave, call by call, exactly as without it; conversely, a program that leaves nodes of the pool unused without automatic reordering behaves in the same way with it; (2) histories in which automatic reordering is enabled at any time, with pool extensions: every call that cannot start a reordering keeps its promises, and so does get_cofactor, which may start one; (3) after set_auto_reorder(false), force_reorder(), clear_cache() all calls are admissible again. Missing: calls that reorder before they register their result, for which the property is false."
  },
  {
   "property": "C46",
   "status": "proved",
   "theorems": [
    "Teddy.Properties.C46_capacity",
    "Teddy.Properties.C46_prime",
    "Teddy.Properties.C46_no_loss"
   ],
   "note": ""
  },
  {
   "property": "C47",
   "status": "proved",
   "theorems": [
    "Teddy.Properties.C47_no_failure"
   ],
   "note": "Errors include freeing an array of sons that is not allocated and destructing a node that is not there."
  },
  {
   "property": "C48",
   "status": "proved",
   "theorems": [
    "Teddy.Properties.C48_max"
   ],
   "note": "Automatic reordering disabled; with it see C45."
  },
  {
   "property": "C49",
   "status": "proved",
   "theorems": [
    "Teddy.Properties.C49_tuples",
    "Teddy.Properties.C49_make",
    "Teddy.Properties.C49_evaluate",
    "Teddy.Properties.C49_forEach",
    "Teddy.Properties.C49_satisfyAll",
    "Teddy.Properties.C49_satisfyCount",
    "Teddy.Properties.C49_maxVal"
   ],
   "note": "Table of f = make of the values of f in lexicographic order. A vector without a defined value makes the constructor take the maximum of an empty range (undefined behaviour), hence the hypothesis of C49_make."
  },
  {
   "property": "C50",
   "status": "proved",
   "theorems": [
    "Teddy.Properties.C50_dpld",
    "Teddy.Properties.C50_dpldE"
   ],
   "note": ""
  },
  {
   "property": "C51",
   "status": "proved",
   "theorems": [
    "Teddy.Properties.C51_probability",
    "Teddy.Properties.C51_binaryProbability",
    "Teddy.Properties.C51_availability",
    "Teddy.Properties.C51_unavailability",
    "Teddy.Properties.C51_stateFrequency",
    "Teddy.Properties.C51_structuralImportance",
    "Teddy.Properties.C51_birnbaumImportance"
   ],
   "note": "Rationals instead of doubles. unavailability adds the states 0 .. s-1 only."
  },
  {
   "property": "C52",
   "status": "partial",
   "theorems": [
    "Teddy.Properties.C52_mcvs_partial",
    "Teddy.Properties.C52_mpvs_partial",
    "Teddy.Properties.C52_mcvs_monotone_partial",
    "Teddy.Properties.C52_mpvs_monotone_partial",
    "Teddy.Properties.C52_violated",
    "Teddy.Properties.C52_violated_best",
    "Teddy.Properties.C52_violated_worst"
   ],
   "note": "Proved for all elements but the best (worst) one. False in full: the best (worst) element is never listed as a cut (path) vector (C52_violated_best, C52_violated_worst), and if no component has two states the code reads the front of an empty vector (C52_violated)."
  },
  {
   "property": "C53",
   "status": "proved",
   "theorems": [
    "Teddy.Properties.C53_fussellVesely"
   ],
   "note": "Needs non-zero unavailability; the code divides by it without a check."
  },
  {
   "property": "C54",
   "status": "partial",
   "theorems": [
    "Teddy.Properties.C54_fussell_vesely_partial",
    "Teddy.Properties.C54_closed_partial",
    "Teddy.Properties.C54_violated",
    "Teddy.Properties.C54_violated_marks"
   ],
   "note": "Proved for 0/1-valued derivatives that are layered with respect to the variable order (in particular for every derivative that stays 1 when components get worse) in exact arithmetic. False in general: C54_violated is a coherent system for which the answer is 5/16 instead of 3/8; C54_violated_marks reads data never written."
  },
  {
   "property": "C55",
   "status": "partial",
   "theorems": [
    "Teddy.Properties.C55_visits_partial",
    "Teddy.Properties.C55_once_partial",
    "Teddy.Properties.C55_implicit_partial",
    "Teddy.Properties.C55_violated_order",
    "Teddy.Properties.C55_violated_fixed",
    "Teddy.Properties.C55_violated_empty"
   ],
   "note": "Proved: each element once, lexicographically, then the end. False of the code: the last, not the first, variable of the order changes most often (C55_violated_order); the constructor with fixed values uses an uninitialised vector (C55_violated_fixed); an empty order never ends (C55_violated_empty)."
  },
  {
   "property": "C56",
   "status": "proved",
   "theorems": [
    "Teddy.Properties.C56_evaluate_minmax",
    "Teddy.Properties.C56_minmax_value",
    "Teddy.Properties.C56_evaluate_tree",
    "Teddy.Properties.C56_from_vector",
    "Teddy.Properties.C56_make_diagram",
    "Teddy.Properties.C56_make_diagram_tree"
   ],
   "note": "Preconditions: non-empty terms, existing variables, apply cache valid for make_diagram of a min-max expression. Automatic reordering disabled; with it see C45."
  },
  {
   "property": "C57",
   "status": "partial",
   "theorems": [
    "Teddy.Properties.C57_tree_partial",
    "Teddy.Properties.C57_minmax",
    "Teddy.Properties.C57_violated_zero"
   ],
   "note": "Proved for at least one variable; for zero variables make_expression_tree does not terminate (C57_violated_zero)."
  },
  {
   "property": "C58",
   "status": "proved",
   "theorems": [
    "Teddy.Properties.C58_matrix"
   ],
   "note": "Exact arithmetic; rows whose random numbers are all zero are excluded (0/0 in the code)."
  },
  {
   "property": "C59",
   "status": "partial",
   "theorems": [
    "Teddy.Properties.C59_violated",
    "Teddy.Properties.C59_violated_same_order"
   ],
   "note": "False: two complete programs in which force_reorder adds nodes, once by choosing a worse order and once leaving the order unchanged. What sifting does guarantee is C83 (each variable ends on the first level with the lowest count met) and C15_lower_bound."
  },
  {
   "property": "C60",
   "status": "partial",
   "theorems": [
    "Teddy.Properties.C60_settings_partial",
    "Teddy.Properties.C60_violated"
   ],
   "note": "For programs without force_reorder, whose precondition (AdmAll) is that each call is admissible in the state the specification predicts. A dependency set is compared up to order; get_node_count() of the manager is only required to answer, since it counts garbage. False for pools of less than 5 nodes (C60_violated, see C37)."
  },
  {
   "property": "C61",
   "status": "proved",
   "theorems": [
    "Teddy.Properties.C61_apply",
    "Teddy.Properties.C61_transform",
    "Teddy.Properties.C61_cofactor"
   ],
   "note": "In histories without reordering and without stale marks (see C23). apply: each operation id stands for one operation (C20). Automatic reordering disabled (C45)."
  },
  {
   "property": "C62",
   "status": "partial",
   "theorems": [
    "Teddy.Properties.C62_diagram",
    "Teddy.Properties.C62_count_partial",
    "Teddy.Properties.C62_violated"
   ],
   "note": "The shipped n-queens example, as a program of API calls. The diagram is right for every n >= 2; the printed number of solutions is right for 2 <= n <= 8. For every n >= 9 satisfy_count shifts by 64 or more (C62_violated). For n = 1 the manager cannot be constructed (C43_violated_one)."
  },
  {
   "property": "C63",
   "status": "partial",
   "theorems": [
    "Teddy.Properties.C63_symbolic_availability_partial",
    "Teddy.Properties.C63_agrees_partial",
    "Teddy.Properties.C63_violated",
    "Teddy.Properties.C63_as_matrix_partial"
   ],
   "note": "Exact real arithmetic; GiNaC's simplification is not modelled. False after from_expression_tree (C63_violated: the end iterator of a map is dereferenced); proved for all other histories."
  },
  {
   "property": "C64",
   "status": "partial",
   "theorems": [
    "Teddy.Properties.C64_at_time",
    "Teddy.Properties.C64_at_time_matrix",
    "Teddy.Properties.C64_symbolic_partial",
    "Teddy.Properties.C64_range_partial",
    "Teddy.Properties.C64_violated_weibull",
    "Teddy.Properties.C64_violated_density",
    "Teddy.Properties.C64_violated_unbounded",
    "Teddy.Properties.C64_new"
   ],
   "note": "Exact real arithmetic. at_time is proved; the numeric and the symbolic Weibull distribution take their arguments in different orders, exponential returns a density, which may exceed one, and a Weibull density with shape below one is unbounded near time 0 (at 0 std::pow has a pole)."
  },
  {
   "property": "C65",
   "status": "partial",
   "theorems": [
    "Teddy.Properties.C65_dot_partial",
    "Teddy.Properties.C65_determines_partial",
    "Teddy.Properties.C65_all_partial",
    "Teddy.Properties.C65_violated",
    "Teddy.Properties.C65_all_violated"
   ],
   "note": "The printed graph of a diagram shows its function: unique root, following the arcs for an assignment leads to the square with the value, distinct numbers, get_node_count nodes, levels follow the order; the same text means the same function; the graph of the whole manager lists every node but the Undefined terminal once, with reference counts as tooltips. Missing: after from_expression_tree nodes are skipped (C65_violated); the whole graph has arcs to the Undefined terminal it does not list (C65_all_violated). The text is collected as a list of nodes, arcs and ranks and then printed; stream errors are not modelled."
  },
  {
   "property": "C66",
   "status": "partial",
   "theorems": [
    "Teddy.Properties.C66_housekeeping_partial",
    "Teddy.Properties.C66_violated"
   ],
   "note": "Relates pairs of programs that are equal after removing force_gc, clear_cache, set_gc_ratio and set_cache_ratio. As in C60 programs do not call force_reorder, and calls that may start a deferred reordering are made with automatic reordering disabled. False for set_gc_ratio(0), which the documentation allows (C66_violated); proved for every ratio of at least one node of the first pool."
  },
  {
   "property": "C67",
   "status": "partial",
   "theorems": [
    "Teddy.Properties.C67_to_vector",
    "Teddy.Properties.C67_evaluate",
    "Teddy.Properties.C67_satisfy_count_partial",
    "Teddy.Properties.C67_satisfy_all",
    "Teddy.Properties.C67_probability_partial",
    "Teddy.Properties.C67_availability_partial",
    "Teddy.Properties.C67_state_frequency_partial",
    "Teddy.Properties.C67_dpld",
    "Teddy.Properties.C67_structural_importance_partial",
    "Teddy.Properties.C67_birnbaum_importance_partial",
    "Teddy.Properties.C67_mcvs_partial",
    "Teddy.Properties.C67_mpvs_partial",
    "Teddy.Properties.C67_violated",
    "Teddy.Properties.C67_fussell_vesely_partial",
    "Teddy.Properties.C67_violated_fussell_vesely"
   ],
   "note": "Conditions as in the theorems about each side: no left-over marks (C24), products of domains fit, functions defined everywhere and not negative for availability, probabilities that sum to one. The lists of elements agree up to the order. Fussell-Vesely importance agrees for coherent systems whose derivative is layered with respect to the variable order, and in general does not (C67_violated_fussell_vesely: 3/4 against 5/8). False after from_expression_tree (C67_violated)."
  },
  {
   "property": "C68",
   "status": "partial",
   "theorems": [
    "Teddy.Properties.C68_calculate_partial",
    "Teddy.Properties.C68_get_partial",
    "Teddy.Properties.C68_monotone_partial",
    "Teddy.Properties.C68_violated"
   ],
   "note": "Needs that no marks are left over (C24). calculate_unavailability takes a matrix, unlike calculate_availability. Exact arithmetic instead of double. False after from_expression_tree (C68_violated: 1/8 instead of 1/16)."
  },
  {
   "property": "C69",
   "status": "partial",
   "theorems": [
    "Teddy.Properties.C69_pivotal_partial",
    "Teddy.Properties.C69_birnbaum_partial",
    "Teddy.Properties.C69_uniform_partial",
    "Teddy.Properties.C69_violated"
   ],
   "note": "Needs that no marks are left over (C24), a function defined everywhere and probabilities that sum to one. Exact arithmetic instead of double. False after from_expression_tree (C69_violated)."
  },
  {
   "property": "C70",
   "status": "partial",
   "theorems": [
    "Teddy.Properties.C70_accuracy_partial",
    "Teddy.Properties.C70_true_partial",
    "Teddy.Properties.C70_passing_partial",
    "Teddy.Properties.C70_violated"
   ],
   "note": "For IEEE binary64 with rounding to nearest, ties to even, without overflow (the numbers stay near one). False after from_expression_tree (C70_violated); proved for all other histories and functions without undefined values. birnbaum_importance is calculate_probability(1, ...)."
  },
  {
   "property": "C71",
   "status": "partial",
   "theorems": [
    "Teddy.Properties.C71_count_partial",
    "Teddy.Properties.C71_violated",
    "Teddy.Properties.C71_error_partial",
    "Teddy.Properties.C71_nearest_partial"
   ],
   "note": "Proved for at most 2^53 assignments. False beyond: for 35 variables with three values satisfy_count returns an even number instead of 3^34. C71_error_partial bounds the relative error for up to 2^62 assignments."
  },
  {
   "property": "C72",
   "status": "partial",
   "theorems": [
    "Teddy.Properties.C72_destruction_partial",
    "Teddy.Properties.C72_released_partial",
    "Teddy.Properties.C72_never_twice",
    "Teddy.Properties.C72_arrays",
    "Teddy.Properties.C72_violated"
   ],
   "note": "False of the code: rehash of a unique table or of the cache abandons the old array (C72_violated). Everything else is released: nodes, arrays of sons, pools, and one array per table; exactly one array is lost per enlargement. C72_never_twice and C72_released_partial are about every program, also one that misuses the interface. The local copy of a table in swap_variable_with_next is not followed."
  },
  {
   "property": "C73",
   "status": "partial",
   "theorems": [
    "Teddy.Properties.C73_cube_partial",
    "Teddy.Properties.C73_violated"
   ],
   "note": "False of the code for std::array: the array is not initialised, so positions of variables that do not occur on the path are indeterminate (C73_violated). What holds for every container: the tuple is found exactly if one exists, the positions set form an implicant, and evaluate returns the value asked for."
  },
  {
   "property": "C74",
   "status": "proved",
   "theorems": [
    "Teddy.Properties.C74_tables",
    "Teddy.Properties.C74_free",
    "Teddy.Properties.C74_find",
    "Teddy.Properties.C74_calls"
   ],
   "note": "For every reachable state. `Walk` (ChainSpec) says what following pointers means; the model keeps `next_` of every node and the array of buckets of every table and follows them in find, insert, erase, rehash, merge, collect_garbage, swap_variable_with_next and for_each_node; a walk that does not end is the outcome `fuel`, a null pointer `nullDeref`, a chain of free nodes that differs from the list of free nodes `badChain`. As in C03, C74_calls excludes calls that start a deferred reordering under automatic reordering."
  },
  {
   "property": "C75",
   "status": "partial",
   "theorems": [
    "Teddy.Properties.C75_readme_basic",
    "Teddy.Properties.C75_readme_reliability",
    "Teddy.Properties.C75_soft_x_partial",
    "Teddy.Properties.C75_soft_x_violated",
    "Teddy.Properties.C75_time_reliability_partial"
   ],
   "note": "The README programs are proved as stated for all hash functions, addresses and settings of assertions. soft_x runs as announced only without assertions; with assertions it always aborts (violated). For time_reliability the symbolic expression is proved equal to the availability at every time; the doubles printed beside it are not modelled here (C70 bounds them)."
  },
  {
   "property": "C76",
   "status": "partial",
   "theorems": [
    "Teddy.Properties.C76_evaluate",
    "Teddy.Properties.C76_fold",
    "Teddy.Properties.C76_gc",
    "Teddy.Properties.C76_satisfy_count",
    "Teddy.Properties.C76_satisfy_all",
    "Teddy.Properties.C76_satisfy_one",
    "Teddy.Properties.C76_satisfy_one_fixed",
    "Teddy.Properties.C76_violated_satisfy_one",
    "Teddy.Properties.C76_operators_1",
    "Teddy.Properties.C76_violated_operators_2",
    "Teddy.Properties.C76_operators_2_partial",
    "Teddy.Properties.C76_violated_cofactor",
    "Teddy.Properties.C76_cofactor_partial",
    "Teddy.Properties.C76_one_var_sift",
    "Teddy.Properties.C76_from_vector",
    "Teddy.Properties.C76_to_vector",
    "Teddy.Properties.C76_from_expression",
    "Teddy.Properties.C76_auto_var_sift_partial"
   ],
   "note": "The core unit tests as programs, on all four fixtures, for every outcome of the random generators, every hash function and address, with and without assertions. False for three tests: cofactor has undefined behaviour for every seed (iterator with fixed values), operators_2 executes signed overflow, satisfy_one fails for some random domains (exact condition proved). auto_var_sift only for seeds whose diagrams leave nodes of the initial pool unused."
  },
  {
   "property": "C77",
   "status": "partial",
   "theorems": [
    "Teddy.Properties.C77_probabilities_bss",
    "Teddy.Properties.C77_probabilities",
    "Teddy.Properties.C77_availabilities",
    "Teddy.Properties.C77_unavailabilities",
    "Teddy.Properties.C77_states_frequency",
    "Teddy.Properties.C77_structural_importances",
    "Teddy.Properties.C77_birnbaum_importances",
    "Teddy.Properties.C77_mcvs_partial",
    "Teddy.Properties.C77_basic_dpld_partial",
    "Teddy.Properties.C77_integrated_dpld_1_partial",
    "Teddy.Properties.C77_integrated_dpld_2_partial",
    "Teddy.Properties.C77_integrated_dpld_3_partial",
    "Teddy.Properties.C77_violated_mcvs",
    "Teddy.Properties.C77_violated_dpld",
    "Teddy.Properties.C77_fussell_vesely_importances",
    "Teddy.Properties.C77_system_test",
    "Teddy.Properties.C77_violated_system_test"
   ],
   "note": "The unit tests of the reliability functions as programs, on all four fixtures, for every outcome of the random generators, every hash function and address. Probabilities are rational numbers. False for five tests on the binary and the three-valued fixture with assertions: they abort for every seed. system_test passes only because it compares the path vectors of the manager with cut vectors (C77_violated_system_test)."
  },
  {
   "property": "C78",
   "status": "partial",
   "theorems": [
    "Teddy.Properties.C78_coherent_partial",
    "Teddy.Properties.C78_series_parallel_partial",
    "Teddy.Properties.C78_violated",
    "Teddy.Properties.C78_bounds_partial"
   ],
   "note": "For coherent systems whose derivative is layered with respect to the variable order, in particular for every series-parallel system without repeated components and every order of the variables; marks left behind by other calls do not matter. For every coherent system and order the calls succeed and the answer lies between the conditional probability that the component is critical and the importance (C78_bounds_partial). Exact arithmetic, canonical diagrams, automatic reordering disabled. False for coherent systems in general: C78_violated is one of four components whose importance is 5/8 instead of 3/4."
  },
  {
   "property": "C79",
   "status": "proved",
   "theorems": [
    "Teddy.Properties.C79_type3",
    "Teddy.Properties.C79_type2",
    "Teddy.Properties.C79_experiment"
   ],
   "note": "The experiment as a program: every draw of the random generators, every hash function and address, with and without assertions, and any constants with at least two states and variables. The times it measures are not modelled. The comparison of derivatives is for histories without reordering (C44) in which each operation id stands for one operation (C20), automatic reordering disabled (C45)."
  },
  {
   "property": "C80",
   "status": "proved",
   "theorems": [
    "Teddy.Properties.C80_equal_hash",
    "Teddy.Properties.C80_stable",
    "Teddy.Properties.C80_lookup",
    "Teddy.Properties.C80_swap"
   ],
   "note": "After reordering without reducing, equal functions may have different handles (C44), so the lookup is stated for histories without force_reorder; stability of hashes and comparisons holds for all histories."
  },
  {
   "property": "C81",
   "status": "partial",
   "theorems": [
    "Teddy.Properties.C81_counter",
    "Teddy.Properties.C81_evaluate",
    "Teddy.Properties.C81_satisfy_count_partial",
    "Teddy.Properties.C81_satisfy_one_partial",
    "Teddy.Properties.C81_satisfy_all_partial",
    "Teddy.Properties.C81_violated",
    "Teddy.Properties.C81_violated_constant",
    "Teddy.Properties.C81_exact"
   ],
   "note": "The bound of evaluate holds in every state; satisfy_count makes one step per node in states without stale marks. For functions with two values, in canonical states, satisfy_one makes at most 1 + D\u00b7nodes calls and satisfy_all at most 1 + D\u00b7n\u00b7results (D bounds the domains). False in general: the parity of n variables has at most 2n + 2 nodes, and satisfy_one and satisfy_all for the value 2 make 2^(n+1) \u2212 1 calls. Steps are calls and visits of nodes; the loop of domain_product inside satisfy_count is not counted."
  },
  {
   "property": "C82",
   "status": "partial",
   "theorems": [
    "Teddy.Properties.C82_never",
    "Teddy.Properties.C82_transform",
    "Teddy.Properties.C82_after_partial",
    "Teddy.Properties.C82_count_reduced",
    "Teddy.Properties.C82_violated"
   ],
   "note": "False as stated: the results that transform has made when the exception leaves it stay marked. C82_violated: afterwards satisfy_count of another diagram is wrong once, and a node survives the collection of garbage although no diagram is left. Proved: with a function that does not throw the call is the transform of the other theorems (C82_never); the call throws exactly when the function throws for a value of the diagram, and otherwise returns the transformed function (C82_transform); after the exception the handles are as before and the state is one of the histories that all theorems about reachable states range over, without the claim that no node is marked (C82_after_partial: Reachable has a constructor for it); counting a diagram after reducing it gives the right number (C82_count_reduced). Not modelled: the array of sons that a manager with mixed domains loses."
  },
  {
   "property": "C83",
   "status": "proved",
   "theorems": [
    "Teddy.Properties.C83_sifting"
   ],
   "note": "For every reachable state force_reorder is a sequence of placements, one for each variable, larger tables first; SiftSpec.lean says what a placement is: moves by one level that visit every level, the lowest count, the earliest of equals, and the final order equal to the order in which that count was taken. C59 shows that the count after going back to that level can be higher."
  },
  {
   "property": "C84",
   "status": "proved",
   "theorems": [
    "Teddy.Properties.C84_counter",
    "Teddy.Properties.C84_transform",
    "Teddy.Properties.C84_negate",
    "Teddy.Properties.C84_reduce",
    "Teddy.Properties.C84_cofactor",
    "Teddy.Properties.C84_cofactors",
    "Teddy.Properties.C84_exact"
   ],
   "note": "The recursions of the model with a counter of calls kept beside the table of results; C84_counter: the counter changes nothing. What is counted are calls of the recursive functions, not the work of the hash tables and of garbage collection that make_internal_node may start. The number of nodes is the length of a list of the nodes below the root without repetition; it is what get_node_count returns if no node is marked by mistake."
  },
  {
   "property": "C85",
   "status": "partial",
   "theorems": [
    "Teddy.Properties.C85_pools_partial",
    "Teddy.Properties.C85_first_pool_partial",
    "Teddy.Properties.C85_violated"
   ],
   "note": "False as stated: the code multiplies the ratio with the number of nodes in all pools, not in the initial one. C85_violated: with 10 nodes in six pools, the initial one of 5 nodes, and the ratio 1/5, one node is collected, which is not fewer than 1, and another pool is allocated. Proved for all reachable states without automatic reordering: what is collected is what force_gc collects, and another pool is allocated exactly if this is less than the ratio of the nodes in all pools, rounded down (C85_pools_partial); this is the documented condition while there is one pool and the product is a whole number (C85_first_pool_partial). Stated for the part of make_new_node that makes room, since the number of pools cannot be seen through the interface."
  },
  {
   "property": "C86",
   "status": "proved",
   "theorems": [
    "Teddy.Properties.C86_transform",
    "Teddy.Properties.C86_negate",
    "Teddy.Properties.C86_reduce"
   ],
   "note": "Also for diagrams that are not reduced; C61_transform is the case of a manager that was never reordered. States with marks left behind are excluded because get_node_count is wrong there (C24)."
  },
  {
   "property": "C87",
   "status": "proved",
   "theorems": [
    "Teddy.Properties.C87_cofactor",
    "Teddy.Properties.C87_cofactors"
   ],
   "note": "In managers that were never reordered C61_cofactor says more: no nodes are added. Whether the factor 2 is needed after a reordering is open; a search among small diagrams found none that grows."
  },
  {
   "property": "C88",
   "status": "partial",
   "theorems": [
    "Teddy.Properties.C88_counter",
    "Teddy.Properties.C88_apply_partial",
    "Teddy.Properties.C88_violated",
    "Teddy.Properties.C88_apart"
   ],
   "note": "False: the cache keeps one result per slot, and results that overwrite each other are computed again (C88_violated). Proved: at most 1 + D + ... + D^n calls, for every reachable state; the witness reaches this bound."
  }
 ]
}