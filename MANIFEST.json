{
 "claims": [
  {
   "property": "C01",
   "status": "proved",
   "theorems": [
    "AHO.Props.C01_solve_returns_optimum"
   ],
   "note": "Data is any ordered field (exact arithmetic; for doubles see C32). The int capacity is Spec.Capacity; n+1 < 2^64."
  },
  {
   "property": "C02",
   "status": "proved",
   "theorems": [
    "AHO.Props.C02_nullopt_iff_infeasible"
   ],
   "note": "Same hypotheses as C01."
  },
  {
   "property": "C03",
   "status": "proved",
   "theorems": [
    "AHO.Props.C03_terminates"
   ],
   "note": "With an explicit bound on the rounds of each loop, polynomial in n, the number of pairs and the sizes of the ranges."
  },
  {
   "property": "C04",
   "status": "proved",
   "theorems": [
    "AHO.Props.C04_malformed_rejected"
   ],
   "note": "For every type Data, costs not convex. Assumes that differences of range ends are representable (they are computed before the checks)."
  },
  {
   "property": "C05",
   "status": "proved",
   "theorems": [
    "AHO.Props.C05_no_undefined_behaviour"
   ],
   "note": "Every failing outcome of the model other than 'loop bound reached' is excluded, for every bound."
  },
  {
   "property": "C06",
   "status": "proved",
   "theorems": [
    "AHO.Props.C06_documented_capacity_suffices"
   ],
   "note": "'Within U of zero' is expressed by: zero in every node range, no negative upper end of a pair."
  },
  {
   "property": "C07",
   "status": "proved",
   "theorems": [
    "AHO.Props.C07_documented_capacity_insufficient",
    "AHO.Props.C07_documented_capacity_insufficient_inside",
    "AHO.Props.C07_corrected_capacity"
   ],
   "note": "Two counterexamples to the documented capacity, and the corrected bound."
  },
  {
   "property": "C08",
   "status": "proved",
   "theorems": [
    "AHO.Props.C08_callbacks_only_in_range"
   ],
   "note": "Callbacks which refuse all other arguments give the same result."
  },
  {
   "property": "C09",
   "status": "proved",
   "theorems": [
    "AHO.Props.C09_order_irrelevant"
   ],
   "note": ""
  },
  {
   "property": "C10",
   "status": "proved",
   "theorems": [
    "AHO.Props.C10_reverse",
    "AHO.Props.C10_merge",
    "AHO.Props.C10_merge_limits"
   ],
   "note": ""
  },
  {
   "property": "C11",
   "status": "proved",
   "theorems": [
    "AHO.Props.C11_mus_zero_ignored"
   ],
   "note": "Equality of the executions for arbitrary arguments and every type Data."
  },
  {
   "property": "C12",
   "status": "proved",
   "theorems": [
    "AHO.Props.C12_constants_shift_optimum"
   ],
   "note": ""
  },
  {
   "property": "C13",
   "status": "proved",
   "theorems": [
    "AHO.Props.C13_more_pairs",
    "AHO.Props.C13_smaller_ranges"
   ],
   "note": ""
  },
  {
   "property": "C14",
   "status": "proved",
   "theorems": [
    "AHO.Props.C14_pre_processing"
   ],
   "note": ""
  },
  {
   "property": "C15",
   "status": "proved",
   "theorems": [
    "AHO.Props.C15_min"
   ],
   "note": ""
  },
  {
   "property": "C16",
   "status": "proved",
   "theorems": [
    "AHO.Props.C16_partition_point"
   ],
   "note": "The number of probes is expressed by the loop bound."
  },
  {
   "property": "C17",
   "status": "proved",
   "theorems": [
    "AHO.Props.C17_unique_queue"
   ],
   "note": ""
  },
  {
   "property": "C18",
   "status": "proved",
   "theorems": [
    "AHO.Props.C18_link_cut_tree_is_forest"
   ],
   "note": "Pointer-level model of splay trees with lazy values; every operation history."
  },
  {
   "property": "C19",
   "status": "proved",
   "theorems": [
    "AHO.Props.C19_get_min_shallowest"
   ],
   "note": ""
  },
  {
   "property": "C20",
   "status": "proved",
   "theorems": [
    "AHO.Props.C18_link_cut_tree_is_forest",
    "AHO.Props.C20_cut_assert",
    "AHO.Props.C20_set_fa_assert",
    "AHO.Props.C20_set_fa_assert_detects",
    "AHO.Props.C20_set_fa_assert_incomplete"
   ],
   "note": "The assert of cut fails exactly at roots; that of set_fa holds at roots, fails if a node is attached twice in a row, but does not detect every wrong call (witness)."
  },
  {
   "property": "C21",
   "status": "proved",
   "theorems": [
    "AHO.Props.C21_min_cost",
    "AHO.Props.C21_fails_for_zero_width"
   ],
   "note": "Needs U >= 1; false for U = 0 (witness). 'One limit per pair' turned out not to be needed."
  },
  {
   "property": "C22",
   "status": "proved",
   "theorems": [
    "AHO.Props.C22_threshold"
   ],
   "note": "For networks in which not all ranges are points, or which are feasible; ProblemSolver only builds such networks."
  },
  {
   "property": "C23",
   "status": "proved",
   "theorems": [
    "AHO.Props.C23_balanced_after_phases"
   ],
   "note": ""
  },
  {
   "property": "C24",
   "status": "proved",
   "theorems": [
    "AHO.Props.C24_epsilon_optimal_after_phases"
   ],
   "note": ""
  },
  {
   "property": "C25",
   "status": "proved",
   "theorems": [
    "AHO.Props.C25_active_nodes_are_roots"
   ],
   "note": ""
  },
  {
   "property": "C26",
   "status": "proved",
   "theorems": [
    "AHO.Props.C26_relabel_bound"
   ],
   "note": ""
  },
  {
   "property": "C27",
   "status": "proved",
   "theorems": [
    "AHO.Props.C27_solve_repeatable",
    "AHO.Props.C27_min_cost_single_use"
   ],
   "note": "Repeatability is built into the model (solve is const); the single-use part is a witness."
  },
  {
   "property": "C28",
   "status": "proved",
   "theorems": [
    "AHO.Props.C28_renaming_invariant"
   ],
   "note": ""
  },
  {
   "property": "C29",
   "status": "proved",
   "theorems": [
    "AHO.Props.C29_translation_invariant"
   ],
   "note": ""
  },
  {
   "property": "C30",
   "status": "proved",
   "theorems": [
    "AHO.Props.C30_trichotomy",
    "AHO.Props.C30_le_ge",
    "AHO.Props.C30_order",
    "AHO.Props.C30_not_transitive",
    "AHO.Props.C30_not_additive",
    "AHO.Props.C30_nan"
   ],
   "note": "Values are numbers of an ordered field, both infinities, NaN; sums not rounded."
  },
  {
   "property": "C31",
   "status": "proved",
   "theorems": [
    "AHO.Props.C31_oracle_correct",
    "AHO.Props.C31_solver_agrees_with_oracle",
    "AHO.Props.C31_convexity_needed"
   ],
   "note": ""
  },
  {
   "property": "C32",
   "status": "proved",
   "theorems": [
    "AHO.Props.C32_double_exact",
    "AHO.Props.C32_floating_point_exact",
    "AHO.Props.C32_round_number"
   ],
   "note": "Rounded arithmetic of any binary format; explicit sufficient bound on the sizes."
  },
  {
   "property": "C33",
   "status": "proved",
   "theorems": [
    "AHO.Props.C33_wraparound_reads_out_of_bounds",
    "AHO.Props.C33_constructor_memory_safe"
   ],
   "note": ""
  },
  {
   "property": "C34",
   "status": "proved",
   "theorems": [
    "AHO.Props.C34_independent_nodes"
   ],
   "note": ""
  },
  {
   "property": "C35",
   "status": "proved",
   "theorems": [
    "AHO.Props.C35_constructor"
   ],
   "note": ""
  },
  {
   "property": "C36",
   "status": "proved",
   "theorems": [
    "AHO.Props.C36_wrapped_solver_inexact"
   ],
   "note": "Witness, evaluated by the kernel."
  },
  {
   "property": "C37",
   "status": "proved",
   "theorems": [
    "AHO.Props.C37_double_nullopt_though_feasible"
   ],
   "note": "Witness, evaluated by the kernel."
  },
  {
   "property": "C38",
   "status": "proved",
   "theorems": [
    "AHO.Props.C38_double_never_returns"
   ],
   "note": "A witness instance. The state of the loop recurs with greater potentials (evaluated by the kernel), which is shown to lead to an overflow for every width of int."
  },
  {
   "property": "C39",
   "status": "proved",
   "theorems": [
    "AHO.Props.C39_wider_int"
   ],
   "note": "Relational proof over the whole program, for every Data type."
  },
  {
   "property": "C40",
   "status": "proved",
   "theorems": [
    "AHO.Props.C40_rounding",
    "AHO.Props.C40_formats",
    "AHO.Props.C40_operations",
    "AHO.Props.C40_special"
   ],
   "note": "About the model of double itself, against the definition of rounding in IEEE 754; the rules for infinities and NaN as equations."
  },
  {
   "property": "C41",
   "status": "proved",
   "theorems": [
    "AHO.Props.C41_ternary_search",
    "AHO.Props.C41_suffix_minimum",
    "AHO.Props.C41_ternary_needs_convexity",
    "AHO.Props.C41_range_overflow"
   ],
   "note": ""
  },
  {
   "property": "C42",
   "status": "proved",
   "theorems": [
    "AHO.Props.C42_refine"
   ],
   "note": "Data is any ordered field."
  },
  {
   "property": "C43",
   "status": "proved",
   "theorems": [
    "AHO.Props.C43_min_cost",
    "AHO.Props.C43_min_cost_fails",
    "AHO.Props.C43_min_cost_misses"
   ],
   "note": "Positive result for networks whose negative costs are outweighed, and two witnesses that this is needed."
  },
  {
   "property": "C44",
   "status": "proved",
   "theorems": [
    "AHO.Props.C44_simple_correct",
    "AHO.Props.C44_three_agree"
   ],
   "note": "Exact arithmetic."
  },
  {
   "property": "C45",
   "status": "proved",
   "theorems": [
    "AHO.Props.C45_simple_wrong_value",
    "AHO.Props.C45_simple_wrong_solvable"
   ],
   "note": "Witnesses, evaluated by the kernel."
  },
  {
   "property": "C46",
   "status": "proved",
   "theorems": [
    "AHO.Props.C46_self_pair"
   ],
   "note": "Witness, evaluated by the kernel."
  },
  {
   "property": "C47",
   "status": "proved",
   "theorems": [
    "AHO.Props.C47_generator_correct",
    "AHO.Props.C47_generator_double",
    "AHO.Props.C47_generator_ends",
    "AHO.Props.C47_generator_one_node",
    "AHO.Props.C48_suites_are_the_tests"
   ],
   "note": ""
  },
  {
   "property": "C48",
   "status": "proved",
   "theorems": [
    "AHO.Props.C48_random_tests",
    "AHO.Props.C48_random_tests_double",
    "AHO.Props.C48_suites_are_the_tests"
   ],
   "note": "All three programs, in exact arithmetic and with double."
  },
  {
   "property": "C49",
   "status": "proved",
   "theorems": [
    "AHO.Props.C49_seed_insufficient"
   ],
   "note": "Witness, evaluated by the kernel."
  },
  {
   "property": "C50",
   "status": "proved",
   "theorems": [
    "AHO.Props.C50_oracle_exact"
   ],
   "note": ""
  },
  {
   "property": "C51",
   "status": "proved",
   "theorems": [
    "AHO.Props.C51_simple_exact"
   ],
   "note": ""
  },
  {
   "property": "C52",
   "status": "proved",
   "theorems": [
    "AHO.Props.C52_fixed_tests"
   ],
   "note": "Evaluated by the kernel; optimality by C31."
  },
  {
   "property": "C53",
   "status": "proved",
   "theorems": [
    "AHO.Props.C53_rounds"
   ],
   "note": ""
  },
  {
   "property": "C54",
   "status": "proved",
   "theorems": [
    "AHO.Props.C54_rounds_depend_on_distance",
    "AHO.Props.C54_no_bound"
   ],
   "note": "Lower bound for a family of instances, and its consequence as a negation."
  },
  {
   "property": "C55",
   "status": "proved",
   "theorems": [
    "AHO.Props.C55_polynomial"
   ],
   "note": ""
  },
  {
   "property": "C56",
   "status": "proved",
   "theorems": [
    "AHO.Props.C56_chain_is_quadratic",
    "AHO.Props.C56_not_logarithmic",
    "AHO.Props.C56_depth_at_most",
    "AHO.Props.C56_counters_only"
   ],
   "note": "Family of sequences, and its consequence as a negation."
  },
  {
   "property": "C57",
   "status": "proved",
   "theorems": [
    "AHO.Props.C57_access_amortised"
   ],
   "note": "For sequences in which a walk from the same node follows every set_fa; this is how Flow uses the structure."
  },
  {
   "property": "C58",
   "status": "proved",
   "theorems": [
    "AHO.Props.C58_running_time",
    "AHO.Props.C58_counters_only"
   ],
   "note": "The restructuring is charged to the rounds by a potential; the walks of find_root cost up to n + 1 each, see C56."
  },
  {
   "property": "C59",
   "status": "proved",
   "theorems": [
    "AHO.Props.C59_comparisons_exact",
    "AHO.Props.C59_wrapped_exact",
    "AHO.Props.C59_wrapped_exact_int",
    "AHO.Props.C59_wrapped_exact_13",
    "AHO.Props.C59_finer_costs_fail"
   ],
   "note": "The last theorem is a witness that the result does not extend to finer costs."
  },
  {
   "property": "C60",
   "status": "proved",
   "theorems": [
    "AHO.Props.C60_wrong_value",
    "AHO.Props.C60_no_value",
    "AHO.Props.C60_never_returns"
   ],
   "note": "Witnesses: the convexity hypothesis of the other claims cannot be dropped."
  },
  {
   "property": "C61",
   "status": "proved",
   "theorems": [
    "AHO.Props.C61_integer_exact",
    "AHO.Props.C61_overflow"
   ],
   "note": "The second theorem is a witness that the size bound cannot be replaced by representability of costs and optimum."
  },
  {
   "property": "C62",
   "status": "proved",
   "theorems": [
    "AHO.Props.C62_infinite_cost"
   ],
   "note": "A witness: costs must be finite numbers."
  },
  {
   "property": "C63",
   "status": "proved",
   "theorems": [
    "AHO.Props.C63_running_time",
    "AHO.Props.C63_running_time_near",
    "AHO.Props.C63_counters_only",
    "AHO.Props.C63_example_counters"
   ],
   "note": "Comparisons of keys in std::map and the copying of vectors and of std::function objects are not counted."
  },
  {
   "property": "C64",
   "status": "proved",
   "theorems": [
    "AHO.Props.C64_memory_safe",
    "AHO.Props.C64_tree"
   ],
   "note": "No law of arithmetic is used. That an assert fails is one of the allowed outcomes here; C66 excludes it."
  },
  {
   "property": "C65",
   "status": "proved",
   "theorems": [
    "AHO.Props.C65_same_limits",
    "AHO.Props.C65_evaluation",
    "AHO.Props.C65_copies",
    "AHO.Props.C65_nesting"
   ],
   "note": "Counts objects of type std::function, not bytes of the stack."
  },
  {
   "property": "C66",
   "status": "proved",
   "theorems": [
    "AHO.Props.C66_no_failed_assertion",
    "AHO.Props.C66_outcomes"
   ],
   "note": "No law of arithmetic is used. The checks of the constructor, which return an invalid object, are not asserts of this kind, see C04 and C05."
  },
  {
   "property": "C67",
   "status": "proved",
   "theorems": [
    "AHO.Props.C67_info_determines_graph",
    "AHO.Props.C67_pretty_print_info",
    "AHO.Props.C67_pretty_print",
    "AHO.Props.C67_costs_not_printed"
   ],
   "note": "The last theorem is a witness."
  },
  {
   "property": "C68",
   "status": "proved",
   "theorems": [
    "AHO.Props.C68_bf_outcomes",
    "AHO.Props.C68_simple_memory_safe",
    "AHO.Props.C68_simple_no_failed_assertion",
    "AHO.Props.C68_simple_assertion_not_convex",
    "AHO.Props.C68_simple_assertion_linear"
   ],
   "note": "The last two theorems are witnesses, evaluated by the kernel."
  },
  {
   "property": "C69",
   "status": "proved",
   "theorems": [
    "AHO.Props.C69_simple_misses_solution",
    "AHO.Props.C69_simple_wrong_value"
   ],
   "note": "Witnesses, evaluated by the kernel."
  },
  {
   "property": "C70",
   "status": "proved",
   "theorems": [
    "AHO.Props.C70_oracle_error",
    "AHO.Props.C70_oracle_plateau"
   ],
   "note": "The second theorem is a witness, evaluated by the kernel."
  },
  {
   "property": "C71",
   "status": "proved",
   "theorems": [
    "AHO.Props.C71_counters_only",
    "AHO.Props.C71_evaluations",
    "AHO.Props.C71_complexity",
    "AHO.Props.C71_correct_in_time",
    "AHO.Props.C71_single_values",
    "AHO.Props.C71_example_counter"
   ],
   "note": "Between two evaluations bf_solve does a constant amount of work, apart from the copy of Omegas at the beginning."
  },
  {
   "property": "C72",
   "status": "proved",
   "theorems": [
    "AHO.Props.C72_counters_only",
    "AHO.Props.C72_evaluations",
    "AHO.Props.C72_refine",
    "AHO.Props.C72_min_cost",
    "AHO.Props.C72_example_network",
    "AHO.Props.C72_correct_in_time",
    "AHO.Props.C72_example_counter"
   ],
   "note": "Whether the rounds of simple_solve stay within the comment O(n * m * U * log^2) is not decided; the bound proved is larger by a factor of about n."
  },
  {
   "property": "C73",
   "status": "proved",
   "theorems": [
    "AHO.Props.C73_min_cost_ends",
    "AHO.Props.C73_simple_ends",
    "AHO.Props.C73_double"
   ],
   "note": "Infinities do not occur in the model of rounding."
  },
  {
   "property": "C74",
   "status": "proved",
   "theorems": [
    "AHO.Props.C74_rounds"
   ],
   "note": "The flow f is not stored in the program; the theorem says that it exists and how it is obtained from the fields. saturated_both relates 'not admissible' to complementary slackness."
  },
  {
   "property": "C75",
   "status": "proved",
   "theorems": [
    "AHO.Props.C75_wrapped_nullopt_though_feasible",
    "AHO.Props.C75_wrapped_never_returns",
    "AHO.Props.C75_wrapped_tree_error_unbounded",
    "AHO.Props.C75_wrapped_cures"
   ],
   "note": "Negative results with concrete witnesses; (d) is two instances only, not a general statement about decimal costs."
  },
  {
   "property": "C76",
   "status": "proved",
   "theorems": [
    "AHO.Props.C76_pretty_near",
    "AHO.Props.C76_same_text_equal",
    "AHO.Props.C76_equal_different_text",
    "AHO.Props.C76_output_alike",
    "AHO.Props.C76_output_near",
    "AHO.Props.C76_fixed_samples",
    "AHO.Props.C76_general_samples"
   ],
   "note": "std::to_string is taken to be %f and the stream to be %g with default settings, rounding to nearest, ties to even; the sign of zero is not modelled."
  },
  {
   "property": "C77",
   "status": "proved",
   "theorems": [
    "AHO.Props.C77_fractional"
   ],
   "note": "Rational assignments; the costs may be in any ordered field."
  },
  {
   "property": "C78",
   "status": "proved",
   "theorems": [
    "AHO.Props.C78_convex_in_limits"
   ],
   "note": ""
  },
  {
   "property": "C79",
   "status": "proved",
   "theorems": [
    "AHO.Props.C79_scale",
    "AHO.Props.C79_mirror",
    "AHO.Props.C79_stable",
    "AHO.Props.C79_union"
   ],
   "note": "Exact arithmetic. Both problems must have sufficient int."
  },
  {
   "property": "C80",
   "status": "proved",
   "theorems": [
    "AHO.Props.C80_fix_one",
    "AHO.Props.C80_fix_all"
   ],
   "note": "The search itself is not modelled; it is up to the caller."
  },
  {
   "property": "C81",
   "status": "proved",
   "theorems": [
    "AHO.Props.C81_local_test",
    "AHO.Props.C81_limits_do_not_bind"
   ],
   "note": ""
  },
  {
   "property": "C82",
   "status": "proved",
   "theorems": [
    "AHO.Props.C82_merge_before_calc"
   ],
   "note": "The limits are those merge_limits receives; the strict decrease is the example beside the theorem."
  },
  {
   "property": "C83",
   "status": "proved",
   "theorems": [
    "AHO.Props.C83_dual",
    "AHO.Props.C83_phases"
   ],
   "note": "/ is division rounded down; the example network beside the theorems meets the hypothesis."
  },
  {
   "property": "C84",
   "status": "proved",
   "theorems": [
    "AHO.Props.C84_assignment"
   ],
   "note": "If all ranges are single values U is 0 and no phase is run; then there is nothing to choose."
  },
  {
   "property": "C85",
   "status": "proved",
   "theorems": [
    "AHO.Props.C85_rounding"
   ],
   "note": "The amount with the rounding of the paper is defined in Props/QFloor.lean as paperQ; optimality is EpsOptimal with 0 from Spec.lean."
  },
  {
   "property": "C86",
   "status": "proved",
   "theorems": [
    "AHO.Props.C86_submodular",
    "AHO.Props.C86_raise"
   ],
   "note": "Exact arithmetic. The wider problem P is only there to state convexity and capacity once for all limits."
  },
  {
   "property": "C87",
   "status": "proved",
   "theorems": [
    "AHO.Props.C87_resets"
   ],
   "note": "Exact arithmetic. The flows of single phases are not claimed to be the same with and without the resets, only the result."
  },
  {
   "property": "C88",
   "status": "proved",
   "theorems": [
    "AHO.Props.C88_paper_rounding_never_returns",
    "AHO.Props.C88_same_program"
   ],
   "note": "A statement about a variant of the program which the comment in the source mentions; exact arithmetic, int of 32 bits."
  },
  {
   "property": "C89",
   "status": "proved",
   "theorems": [
    "AHO.Props.C89_excess"
   ],
   "note": "Exact arithmetic."
  },
  {
   "property": "C90",
   "status": "proved",
   "theorems": [
    "AHO.Props.C90_constants",
    "AHO.Props.C90_M_needed",
    "AHO.Props.C90_one_needed"
   ],
   "note": "Exact arithmetic. The second theorem is a family of networks, the third a witness."
  }
 ]
}