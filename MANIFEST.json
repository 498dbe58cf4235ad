{
 "claims": [
  {
   "property": "C01",
   "status": "proved",
   "theorems": [
    "QMat.C01_constructor_total",
    "QMat.C01_interpolation_exact"
   ],
   "note": "Exact arithmetic over the reals."
  },
  {
   "property": "C02",
   "status": "proved",
   "theorems": [
    "QMat.C02_interpolation_cardinal",
    "QMat.C02_interpolation_rowsum",
    "QMat.C02_cardinal_any_order"
   ],
   "note": ""
  },
  {
   "property": "C03",
   "status": "proved",
   "theorems": [
    "QMat.C03_weight_options_interchangeable",
    "QMat.C03_weight_values",
    "QMat.C03_constructor_errors"
   ],
   "note": "CHEBFUN needs at least two distinct points (division by max - min)."
  },
  {
   "property": "C04",
   "status": "proved",
   "theorems": [
    "QMat.C04_integration_exact",
    "QMat.C04_unknown_rule",
    "QMat.C04_rules_agree"
   ],
   "note": "FEJER without assumption; the external leggauss / roots_legendre are a contract (exact to degree 2m-1)."
  },
  {
   "property": "C05",
   "status": "proved",
   "theorems": [
    "QMat.C05_fejer_rule",
    "QMat.C05_fejer_zero"
   ],
   "note": ""
  },
  {
   "property": "C06",
   "status": "proved",
   "theorems": [
    "QMat.C06_fejer_weights"
   ],
   "note": ""
  },
  {
   "property": "C07",
   "status": "proved",
   "theorems": [
    "QMat.C07_derivative_exact",
    "QMat.C07_derivative_order_error"
   ],
   "note": ""
  },
  {
   "property": "C08",
   "status": "proved",
   "theorems": [
    "QMat.C08_second_derivative_is_square"
   ],
   "note": ""
  },
  {
   "property": "C09",
   "status": "proved",
   "theorems": [
    "QMat.C09_duplicates_integration_exact",
    "QMat.C09_duplicates_integration_columns",
    "QMat.C09_duplicates_integration_kept",
    "QMat.C09_duplicates_columns",
    "QMat.C09_duplicates_exact"
   ],
   "note": "Interpolation and integration matrices, any point order, both options."
  },
  {
   "property": "C10",
   "status": "proved",
   "theorems": [
    "QMat.C10_sorted_or_duplicates",
    "QMat.C10_unsorted_points_fails",
    "QMat.C10_exact_iff"
   ],
   "note": "C10_exact_iff is the exact condition for distinct points; C10_unsorted_points_fails the finding."
  },
  {
   "property": "C11",
   "status": "proved",
   "theorems": [
    "QMat.C11_call",
    "QMat.C11_stored_values_shape"
   ],
   "note": ""
  },
  {
   "property": "C12",
   "status": "proved",
   "theorems": [
    "QMat.C12_order_error",
    "QMat.C12_rows",
    "QMat.C12_exact",
    "QMat.C12_negative_order_fails",
    "QMat.C12_reuse_fails",
    "QMat.C12_periodic",
    "QMat.C12_periodic_function"
   ],
   "note": "np.argsort is any permutation that sorts.  C12_reuse_fails is the finding; C12_exact says when rows are exact.  Unsorted input points go through LagrangeApproximation with unsorted points, which is finding C10."
  },
  {
   "property": "C13",
   "status": "proved",
   "theorems": [
    "QMat.C13_nodes_increasing_in_range"
   ],
   "note": "scipy's eigh_tridiagonal is modelled by Mathlib's eigenvalues of the symmetric tridiagonal matrix, then sorted."
  },
  {
   "property": "C14",
   "status": "proved",
   "theorems": [
    "QMat.C14_boundary_nodes",
    "QMat.C14_overwrite_harmless"
   ],
   "note": ""
  },
  {
   "property": "C15",
   "status": "proved",
   "theorems": [
    "QMat.C15_constructor_errors",
    "QMat.C15_getNodes_errors"
   ],
   "note": ""
  },
  {
   "property": "C16",
   "status": "proved",
   "theorems": [
    "QMat.C16_equidistant"
   ],
   "note": ""
  },
  {
   "property": "C17",
   "status": "proved",
   "theorems": [
    "QMat.C17_chebyshev_closed_form"
   ],
   "note": ""
  },
  {
   "property": "C18",
   "status": "proved",
   "theorems": [
    "QMat.C18_legendre_polynomials",
    "QMat.C18_evalOrthogPoly",
    "QMat.C18_chebyshev_polynomials",
    "QMat.C18_errors"
   ],
   "note": ""
  },
  {
   "property": "C19",
   "status": "proved",
   "theorems": [
    "QMat.C19_legendre_quadrature"
   ],
   "note": ""
  },
  {
   "property": "C20",
   "status": "proved",
   "theorems": [
    "QMat.C20_mirror",
    "QMat.C20_symmetric"
   ],
   "note": "Also the mirror relation CHEBY-3 / CHEBY-4."
  },
  {
   "property": "C21",
   "status": "proved",
   "theorems": [
    "QMat.C21_S_rows",
    "QMat.C21_T_Tinv",
    "QMat.C21_Q_cumulative"
   ],
   "note": ""
  },
  {
   "property": "C22",
   "status": "proved",
   "theorems": [
    "QMat.C22_collocation_exact"
   ],
   "note": "Needs tLeft < tRight."
  },
  {
   "property": "C23",
   "status": "proved",
   "theorems": [
    "QMat.C23_collocation_row_sums"
   ],
   "note": ""
  },
  {
   "property": "C24",
   "status": "proved",
   "theorems": [
    "QMat.C24_nodes_exact",
    "QMat.C24_boundary_iff",
    "QMat.C24_one_node",
    "QMat.C24_boundary_nodes_wide",
    "QMat.C24_collocation_nodes",
    "QMat.C24_boundary_nodes_unmoved",
    "QMat.C24_snapping_fails",
    "QMat.C24_single_node_fails"
   ],
   "note": "C24_nodes_exact and C24_boundary_iff are the exact statements for two nodes or more, C24_one_node for one; C24_snapping_fails and C24_single_node_fails are the findings."
  },
  {
   "property": "C25",
   "status": "proved",
   "theorems": [
    "QMat.C25_S_override"
   ],
   "note": ""
  },
  {
   "property": "C26",
   "status": "proved",
   "theorems": [
    "QMat.C26_weights_last_row",
    "QMat.C26_hCoeffs_unit"
   ],
   "note": ""
  },
  {
   "property": "C27",
   "status": "proved",
   "theorems": [
    "QMat.C27_hCoeffs",
    "QMat.C27_hCoeffs_fails",
    "QMat.C27_rk",
    "QMat.C27_registered",
    "QMat.C27_registered_fails"
   ],
   "note": "hCoeffs is the value at 1 (C27_hCoeffs), which is not the value at tRight for any other right end (C27_hCoeffs_fails).  Runge-Kutta classes: C27_rk, C27_registered; EDIRK43 is the exception (C27_registered_fails)."
  },
  {
   "property": "C28",
   "status": "proved",
   "theorems": [
    "QMat.C28_order_iff",
    "QMat.C28_quadrature_order",
    "QMat.C28_quadrature_order_unmoved",
    "QMat.C28_quadrature_order_lobatto",
    "QMat.C28_order_fails"
   ],
   "note": "On every interval that is not tiny relative to its position and the node number (Wide); false otherwise (C28_order_fails); C28_order_iff is the equivalence for LEGENDRE.  LOBATTO without condition."
  },
  {
   "property": "C29",
   "status": "proved",
   "theorems": [
    "QMat.C29_convergence_iff",
    "QMat.C29_collocation_order",
    "QMat.C29_legendre_iff",
    "QMat.C29_many_nodes_fails",
    "QMat.C29_collocation_order_small",
    "QMat.C29_collocation_order_lobatto",
    "QMat.C29_collocation_order_nodes"
   ],
   "note": "C29_convergence_iff is the equivalence; C29_many_nodes_fails the finding."
  },
  {
   "property": "C30",
   "status": "proved",
   "theorems": [
    "QMat.C30_solveDahlquist",
    "QMat.C30_solveDahlquist_embedded",
    "QMat.C30_solveDahlquist_errors",
    "QMat.C30_errorDahlquist",
    "QMat.C30_given_sizes"
   ],
   "note": ""
  },
  {
   "property": "C31",
   "status": "proved",
   "theorems": [
    "QMat.C31_linear_order",
    "QMat.C31_linear_order_embedded",
    "QMat.C31_order_sharp"
   ],
   "note": "Also for embedded weights."
  },
  {
   "property": "C32",
   "status": "proved",
   "theorems": [
    "QMat.C32_linear_conditions",
    "QMat.C32_convergence",
    "QMat.C32_order_is_exact",
    "QMat.C32_convergence_sharp",
    "QMat.C32_linear_conditions_embedded",
    "QMat.C32_convergence_embedded",
    "QMat.C32_embedded_fails"
   ],
   "note": "All registered schemes; finding C32_embedded_fails."
  },
  {
   "property": "C33",
   "status": "proved",
   "theorems": [
    "QMat.C33_tree_conditions",
    "QMat.C33_tree_conditions_embedded",
    "QMat.C33_tree_fails"
   ],
   "note": "All rooted trees, all registered schemes but the ones in C33_tree_fails."
  },
  {
   "property": "C34",
   "status": "proved",
   "theorems": [
    "QMat.C34_row_sums",
    "QMat.C34_row_sums_fails"
   ],
   "note": "All but RK53 (C34_row_sums_fails)."
  },
  {
   "property": "C35",
   "status": "proved",
   "theorems": [
    "QMat.C35_explicit",
    "QMat.C35_diagonally_implicit",
    "QMat.C35_explicit_always_defined",
    "QMat.C35_defined_if_not_growing"
   ],
   "note": ""
  },
  {
   "property": "C36",
   "status": "proved",
   "theorems": [
    "QMat.C36_padding_same_results",
    "QMat.C36_padding_nodes",
    "QMat.C36_padding_row_sums",
    "QMat.C36_padding_rightIsNode",
    "QMat.C36_padding_embedded_fails"
   ],
   "note": "Embedded weights are not padded: C36_padding_embedded_fails."
  },
  {
   "property": "C37",
   "status": "proved",
   "theorems": [
    "QMat.C37_unknown",
    "QMat.C37_errors",
    "QMat.C37_rk",
    "QMat.C37_coll",
    "QMat.C37_getInstance",
    "QMat.C37_rk_params",
    "QMat.C37_coll_params",
    "QMat.C37_padded"
   ],
   "note": "Parameters that are arrays are not modelled.  The form error comes after the constructor's errors (C37_errors)."
  },
  {
   "property": "C38",
   "status": "proved",
   "theorems": [
    "QMat.C38_by_name",
    "QMat.C38_backward_euler",
    "QMat.C38_forward_euler",
    "QMat.C38_trapezoidal",
    "QMat.C38_constructor"
   ],
   "note": ""
  },
  {
   "property": "C39",
   "status": "proved",
   "theorems": [
    "QMat.C39_dTau_zero",
    "QMat.C39_parallel_by_name",
    "QMat.C39_trapar_tLeft_fails",
    "QMat.C39_row_sums"
   ],
   "note": ""
  },
  {
   "property": "C40",
   "status": "proved",
   "theorems": [
    "QMat.C40_SDelta",
    "QMat.C40_SDelta_QDelta"
   ],
   "note": ""
  },
  {
   "property": "C41",
   "status": "proved",
   "theorems": [
    "QMat.C41_diagonal",
    "QMat.C41_strictly_lower",
    "QMat.C41_lower",
    "QMat.C41_bepar_tLeft_fails"
   ],
   "note": "All 26 registered classes; finding C41_bepar_tLeft_fails."
  },
  {
   "property": "C42",
   "status": "proved",
   "theorems": [
    "QMat.C42_trap_linear",
    "QMat.C42_trap_matches_Q",
    "QMat.C42_trapar_tLeft_fails"
   ],
   "note": "Finding C42_trapar_tLeft_fails."
  },
  {
   "property": "C43",
   "status": "proved",
   "theorems": [
    "QMat.C43_ldu",
    "QMat.C43_not_square",
    "QMat.C43_unique",
    "QMat.C43_zero_pivot_fails",
    "QMat.C43_by_name"
   ],
   "note": "Finding C43_zero_pivot_fails."
  },
  {
   "property": "C44",
   "status": "proved",
   "theorems": [
    "QMat.C44_lu_nilpotent",
    "QMat.C44_lu2",
    "QMat.C44_row_exchange_fails",
    "QMat.C44_by_name"
   ],
   "note": "scipy.linalg.lu is a contract (IsPLU); finding C44_row_exchange_fails."
  },
  {
   "property": "C45",
   "status": "proved",
   "theorems": [
    "QMat.C45_minsrns_nilpotent",
    "QMat.C45_minsrns_nilpotent_generator"
   ],
   "note": ""
  },
  {
   "property": "C46",
   "status": "proved",
   "theorems": [
    "QMat.C46_flex_exact",
    "QMat.C46_flex_product",
    "QMat.C46_interval_ignored_fails"
   ],
   "note": "Finding C46_interval_ignored_fails."
  },
  {
   "property": "C47",
   "status": "proved",
   "theorems": [
    "QMat.C47_minsrs_nilpotent",
    "QMat.C47_minsrs_nilpotent_left"
   ],
   "note": "scipy.optimize.fsolve is arbitrary; that its result is a root is a hypothesis, shown satisfiable."
  },
  {
   "property": "C48",
   "status": "proved",
   "theorems": [
    "QMat.C48_flex_after",
    "QMat.C48_aliases",
    "QMat.C48_node_based",
    "QMat.C48_flex",
    "QMat.C48_Q_based"
   ],
   "note": ""
  },
  {
   "property": "C49",
   "status": "proved",
   "theorems": [
    "QMat.C49_tables",
    "QMat.C49_generators"
   ],
   "note": "Tables transcribed mechanically by tools/gen_mincoeffs.py; decimal literals as the decimals they denote."
  },
  {
   "property": "C50",
   "status": "proved",
   "theorems": [
    "QMat.C50_sweep_index"
   ],
   "note": ""
  },
  {
   "property": "C51",
   "status": "proved",
   "theorems": [
    "QMat.C51_history",
    "QMat.C51_genCoeffs_fails",
    "QMat.C51_shared_fails"
   ],
   "note": "Explicit heap of arrays.  Findings C51_genCoeffs_fails, C51_shared_fails."
  },
  {
   "property": "C52",
   "status": "proved",
   "theorems": [
    "QMat.C52_list",
    "QMat.C52_scalar",
    "QMat.C52_dTau_form"
   ],
   "note": ""
  },
  {
   "property": "C53",
   "status": "proved",
   "theorems": [
    "QMat.C53_stack",
    "QMat.C53_total",
    "QMat.C53_single",
    "QMat.C53_errors",
    "QMat.C53_list_modified_fails",
    "QMat.C53_list_kept"
   ],
   "note": "Finding C53_list_modified_fails."
  },
  {
   "property": "C54",
   "status": "proved",
   "theorems": [
    "QMat.C54_by_name",
    "QMat.C54_leapfrog",
    "QMat.C54_row_sums",
    "QMat.C54_consistency_fails"
   ],
   "note": "Finding C54_consistency_fails."
  },
  {
   "property": "C55",
   "status": "proved",
   "theorems": [
    "QMat.C55_without_qGen",
    "QMat.C55_with_qGen",
    "QMat.C55_errors",
    "QMat.C55_extra_positional_fails",
    "QMat.C55_missing",
    "QMat.C55_qGen_other",
    "QMat.C55_qGen_coll",
    "QMat.C55_positional"
   ],
   "note": "Finding C55_extra_positional_fails."
  },
  {
   "property": "C56",
   "status": "proved",
   "theorems": [
    "QMat.C56_errorDahlquistSDC",
    "QMat.C56_sweeps",
    "QMat.C56_iterates_unique",
    "QMat.C56_error_recursion",
    "QMat.C56_fixed_point",
    "QMat.C56_total"
   ],
   "note": "Over the complex numbers; np.linalg.solve is the exact solution or LinAlgError."
  },
  {
   "property": "C57",
   "status": "proved",
   "theorems": [
    "QMat.C57_exact_sweep",
    "QMat.C57_equals_solveDahlquist"
   ],
   "note": ""
  },
  {
   "property": "C58",
   "status": "proved",
   "theorems": [
    "QMat.C58_monitors",
    "QMat.C58_unknown_monitor",
    "QMat.C58_single_matrix"
   ],
   "note": "An unknown monitor raises AssertionError once nSteps and QDelta are valid."
  },
  {
   "property": "C59",
   "status": "proved",
   "theorems": [
    "QMat.C59_monitored"
   ],
   "note": ""
  },
  {
   "property": "C60",
   "status": "proved",
   "theorems": [
    "QMat.C60_lastnode_fails",
    "QMat.C60_criterion",
    "QMat.C60_one_order_per_sweep",
    "QMat.C60_base_order",
    "QMat.C60_base_order_unmoved",
    "QMat.C60_base_order_small"
   ],
   "note": "Order bounds from above and below for all Q, QDelta and K; C60_base_order for collocation objects with any number of nodes, from the order of their quadrature."
  },
  {
   "property": "C61",
   "status": "proved",
   "theorems": [
    "QMat.C61_bounds",
    "QMat.C61_table_fails",
    "QMat.C61_equidistant",
    "QMat.C61_bonus_fails",
    "QMat.C61_exact",
    "QMat.C61_announced",
    "QMat.C61_overstated_fails",
    "QMat.C61_understated_fails"
   ],
   "note": "Findings: C61_table_fails (above the order of the collocation, not monotone, alias dependent), C61_bonus_fails (overstated bonus), C61_overstated_fails (announced 7, exact 5), C61_understated_fails (announced 1, exact 2); C61_announced lists all differences; see also C60_lastnode_fails."
  },
  {
   "property": "C62",
   "status": "proved",
   "theorems": [
    "QMat.C62_nonstiff",
    "QMat.C62_minsrns",
    "QMat.C62_minsrns_lastnode",
    "QMat.C62_flex",
    "QMat.C62_lu",
    "QMat.C62_minsrs",
    "QMat.C62_minsrs_left"
   ],
   "note": "scipy.linalg.lu and fsolve are contracts, as in C44 and C47."
  },
  {
   "property": "C63",
   "status": "proved",
   "theorems": [
    "QMat.C63_total",
    "QMat.C63_exact",
    "QMat.C63_least_squares",
    "QMat.C63_default",
    "QMat.C63_is_interpolation"
   ],
   "note": "np.linalg.inv / solve of the normal equations is exact or LinAlgError."
  },
  {
   "property": "C64",
   "status": "proved",
   "theorems": [
    "QMat.C64_regression",
    "QMat.C64_power_law",
    "QMat.C64_scaling",
    "QMat.C64_inputs",
    "QMat.C64_arrays",
    "QMat.C64_single_error_fails"
   ],
   "note": "Exact real arithmetic; arrays of any sizes, nan as a separate value."
  },
  {
   "property": "C65",
   "status": "proved",
   "theorems": [
    "QMat.Registry.C65_q_history",
    "QMat.Registry.C65_qdelta_history",
    "QMat.Registry.C65_rk_history",
    "QMat.Registry.C65_no_overwrite",
    "QMat.Registry.C65_any_order",
    "QMat.Registry.C65_qdelta_keys_nodup",
    "QMat.Registry.C65_qdelta_lookup",
    "QMat.Registry.C65_q_keys_nodup"
   ],
   "note": "Classes are objects of a heap with MRO and attributes; any history, raising calls included."
  },
  {
   "property": "C66",
   "status": "proved",
   "theorems": [
    "QMat.Registry.C66_trace_bound",
    "QMat.Registry.C66_unchanged",
    "QMat.Registry.C66_trace_fails",
    "QMat.Registry.C66_rk_fails",
    "QMat.Registry.C66_inherited_alias_fails",
    "QMat.Registry.C66_trace_bound_qdelta",
    "QMat.Registry.C66_trace_bound_rk",
    "QMat.Registry.C66_unchanged_qdelta",
    "QMat.Registry.C66_class_changed_fails"
   ],
   "note": "The unconditional statement is false: C66_trace_fails, C66_rk_fails, C66_inherited_alias_fails; C66_unchanged, C66_unchanged_qdelta and the C66_trace_bound theorems (one per registry) are what holds; C66_class_changed_fails: a refused QDelta class may have become k-dependent."
  },
  {
   "property": "C67",
   "status": "proved",
   "theorems": [
    "QMat.Registry.C67_once",
    "QMat.Registry.C67_by_name"
   ],
   "note": ""
  },
  {
   "property": "C68",
   "status": "proved",
   "theorems": [
    "QMat.Registry.C68_q",
    "QMat.Registry.C68_getInstance",
    "QMat.Registry.C68_qdelta",
    "QMat.Registry.C68_rk",
    "QMat.Registry.C68_b2_fails",
    "QMat.Registry.C68_mixin_fails"
   ],
   "note": "Findings C68_b2_fails (embedded weights of any size), C68_mixin_fails."
  },
  {
   "property": "C69",
   "status": "proved",
   "theorems": [
    "QMat.C69_tWall",
    "QMat.C69_kept",
    "QMat.C69_errors",
    "QMat.C69_with",
    "QMat.C69_nonneg",
    "QMat.C69_nested_fails"
   ],
   "note": "The clock is an arbitrary input; finding C69_nested_fails."
  },
  {
   "property": "C70",
   "status": "proved",
   "theorems": [
    "QMat.C70_isolated",
    "QMat.C70_safe",
    "QMat.C70_coll",
    "QMat.C70_stable",
    "QMat.C70_fresh",
    "QMat.C70_content",
    "QMat.C70_rk_fails"
   ],
   "note": "Heap of arrays by identity; Collocation objects are assumed to share no array with others (their arrays are made in the constructor).  C70_rk_fails is the finding."
  },
  {
   "property": "C71",
   "status": "proved",
   "theorems": [
    "QMat.C71_weights_pos",
    "QMat.C71_solvable"
   ],
   "note": "The condition Unmoved (no node moved by the closeness tests) is shown for LOBATTO and for up to 158 nodes; without it see C24 and C29_many_nodes_fails."
  },
  {
   "property": "C72",
   "status": "proved",
   "theorems": [
    "QMat.C72_contractive",
    "QMat.C72_gauss_conserves"
   ],
   "note": "RADAU-LEFT is excluded: C73_radau_left_fails."
  },
  {
   "property": "C73",
   "status": "proved",
   "theorems": [
    "QMat.C73_stiff_limit",
    "QMat.C73_radau_right",
    "QMat.C73_gauss",
    "QMat.C73_lobatto",
    "QMat.C73_radau_left_fails"
   ],
   "note": "Nodes at an end are excluded by hypothesis where they would be the result of a moved node (legendre_ends_small: none up to 158 nodes)."
  },
  {
   "property": "C74",
   "status": "proved",
   "theorems": [
    "QMat.C74_contractive",
    "QMat.C74_nearly",
    "QMat.C74_nearly_fails",
    "QMat.C74_embedded",
    "QMat.C74_embedded_fails",
    "QMat.C74_complete",
    "QMat.C74_explicit_fails"
   ],
   "note": "Entries of the tables are the exact numbers written in the code.  Findings C74_nearly_fails, C74_embedded_fails, C74_explicit_fails."
  },
  {
   "property": "C75",
   "status": "proved",
   "theorems": [
    "QMat.C75_stiff_limit",
    "QMat.C75_damps",
    "QMat.C75_nearly",
    "QMat.C75_damps_fails",
    "QMat.C75_complete"
   ],
   "note": "Finding C75_damps_fails: six implicit classes do not damp."
  },
  {
   "property": "C76",
   "status": "proved",
   "theorems": [
    "QMat.C76_trees_iff",
    "QMat.C76_order",
    "QMat.C76_order_small",
    "QMat.C76_order_lobatto",
    "QMat.C76_nodes",
    "QMat.C76_barrier",
    "QMat.C76_legendre_iff"
   ],
   "note": "Butcher's order conditions as in C33; that they give the local and global error for smooth f is C82.  Condition Unmoved as in C71."
  },
  {
   "property": "C77",
   "status": "proved",
   "theorems": [
    "QMat.C77_stages",
    "QMat.C77_stages_trap",
    "QMat.C77_base_order",
    "QMat.C77_order",
    "QMat.C77_order_small",
    "QMat.C77_linear",
    "QMat.C77_barrier",
    "QMat.C77_equidistant",
    "QMat.C77_bonus_fails"
   ],
   "note": "Sweeps on u'=f(u) as a Runge-Kutta method with (K+1)M stages (Spec/SDCTrees.lean); the code has SDC for Dahlquist's equation only, where C77_linear links the two.  Finding C77_bonus_fails."
  },
  {
   "property": "C78",
   "status": "proved",
   "theorems": [
    "QMat.C78_gauss_symplectic",
    "QMat.C78_gauss_invariants",
    "QMat.C78_algebraic",
    "QMat.C78_contractive",
    "QMat.C78_left_end_fails"
   ],
   "note": "The step is the one defined by the coefficients (Spec/RKStep.lean); that the stage equations have a solution is a hypothesis.  Finding C78_left_end_fails."
  },
  {
   "property": "C79",
   "status": "proved",
   "theorems": [
    "QMat.C79_contractive",
    "QMat.C79_contractive_fails",
    "QMat.C79_invariants",
    "QMat.C79_invariants_fails"
   ],
   "note": "As C78: the step is the one defined by the coefficients.  Findings C79_contractive_fails, C79_invariants_fails: a right-hand side that acts at the time of one stage only."
  },
  {
   "property": "C80",
   "status": "proved",
   "theorems": [
    "QMat.C80_value",
    "QMat.C80_optimal"
   ],
   "note": "Nelder-Mead itself is a parameter of the model (ExternalNum.minimize), so optimality is under the hypothesis that its result is a minimum."
  },
  {
   "property": "C81",
   "status": "proved",
   "theorems": [
    "QMat.C81_stiff_lu",
    "QMat.C81_stiff_minsrs",
    "QMat.C81_iterates",
    "QMat.C81_values",
    "QMat.C81_small_steps",
    "QMat.C81_stiff",
    "QMat.C81_rate",
    "QMat.C81_picard"
   ],
   "note": "LU and LU2 under the hypotheses of C44 (no row exchange, invertible Q), MIN-SR-S under those of C47 (fsolve finds roots).  C81_picard is for the iterates of C56 and collocation methods on [0,b]."
  },
  {
   "property": "C82",
   "status": "proved",
   "theorems": [
    "QMat.C82_necessary",
    "QMat.C82_order_iff",
    "QMat.C82_quadrature",
    "QMat.C82_tables",
    "QMat.C82_tables_rounded",
    "QMat.C82_order_fails",
    "QMat.C82_quadrature_fails",
    "QMat.C82_embedded",
    "QMat.C82_embedded_fails",
    "QMat.C82_collocation",
    "QMat.C82_collocation_barrier"
   ],
   "note": "Taylor expansion of steps and solutions in rooted trees; uniform on compact sets.  RK53 (wrong node) and classes with rounded coefficients are settled for u' = f(u); time dependent f needs nodes equal to row sums."
  },
  {
   "property": "C83",
   "status": "proved",
   "theorems": [
    "QMat.C83_tables",
    "QMat.C83_explicit",
    "QMat.C83_collocation",
    "QMat.C83_collocation_nodes"
   ],
   "note": "Classes with rounded coefficients have no order in the limit h -> 0; see C82_tables_rounded for their steps."
  },
  {
   "property": "C84",
   "status": "proved",
   "theorems": [
    "QMat.C84_necessary",
    "QMat.C84_order_iff",
    "QMat.C84_order",
    "QMat.C84_barrier"
   ],
   "note": "Autonomous f: with the copied initial value f is evaluated at other times than the nodes."
  },
  {
   "property": "C85",
   "status": "proved",
   "theorems": [
    "QMat.C85_fast",
    "QMat.C85_scaled",
    "QMat.C85_stable"
   ],
   "note": "Unbounded exponents (no overflow or underflow); 'FAST' and 'STABLE'."
  },
  {
   "property": "C86",
   "status": "proved",
   "theorems": [
    "QMat.C86_interpolation",
    "QMat.C86_interpolation_scaled",
    "QMat.C86_interpolation_stable",
    "QMat.C86_nodes",
    "QMat.C86_call"
   ],
   "note": "Unbounded exponents (no overflow or underflow)."
  },
  {
   "property": "C87",
   "status": "proved",
   "theorems": [
    "QMat.C87_first",
    "QMat.C87_second"
   ],
   "note": "Unbounded exponents (no overflow or underflow); weights of 'FAST'."
  },
  {
   "property": "C88",
   "status": "proved",
   "theorems": [
    "QMat.C88_complete",
    "QMat.C88_documented",
    "QMat.C88_documented_radius_fails",
    "QMat.C88_vdhs",
    "QMat.C88_convergence"
   ],
   "note": "Stiff limit only; the documented values are upper bounds, not the radii (C88_documented_radius_fails)."
  },
  {
   "property": "C89",
   "status": "proved",
   "theorems": [
    "QMat.C89_left_half_plane",
    "QMat.C89_negative_axis",
    "QMat.C89_imaginary_axis_fails",
    "QMat.C89_vdhs",
    "QMat.C89_convergence"
   ],
   "note": "Five, seven and nine EQUID nodes only on the negative real axis; false on the imaginary axis (C89_imaginary_axis_fails)."
  },
  {
   "property": "C90",
   "status": "proved",
   "theorems": [
    "QMat.C90_fast",
    "QMat.C90_interpolation",
    "QMat.C90_nodes",
    "QMat.C90_stable",
    "QMat.C90_overflow_fails",
    "QMat.C90_integers_fails",
    "QMat.C90_underflow_fails",
    "QMat.C90_short_fails"
   ],
   "note": "The documented fallback of 'AUTO' does not cover these cases (C90_overflow_fails, C90_underflow_fails)."
  },
  {
   "property": "C91",
   "status": "proved",
   "theorems": [
    "QMat.C91_interpolation",
    "QMat.C91_best_interpolation",
    "QMat.C91_integration",
    "QMat.C91_derivative",
    "QMat.C91_second",
    "QMat.C91_sharp",
    "QMat.C91_collocation",
    "QMat.C91_quadrature",
    "QMat.C91_step"
   ],
   "note": "Classical remainders with explicit constants; sharp for x^n (C91_sharp). The statements on order need an interval that is not tiny relative to its position, as in C28."
  },
  {
   "property": "C92",
   "status": "proved",
   "theorems": [
    "QMat.C92_fejer_rule",
    "QMat.C92_integration",
    "QMat.C92_integral",
    "QMat.C92_check_fails"
   ],
   "note": "Weights of 'FAST' without scaling; cosine, the complex quotients in v0 and the Fourier transform are operations with given error bounds. C92_check_fails: the check of imaginary parts in computeFejerRule is not robust."
  },
  {
   "property": "C93",
   "status": "proved",
   "theorems": [
    "QMat.C93_collocation_unit",
    "QMat.C93_nodes",
    "QMat.C93_lobatto",
    "QMat.C93_call",
    "QMat.C93_collocation",
    "QMat.C93_equid_fails"
   ],
   "note": "Bounds via the Christoffel-Darboux kernel of the orthogonal polynomials used for the nodes, and for LEGENDRE LOBATTO via Fejer's interpolation argument. C93_equid_fails: no such bound for EQUID."
  },
  {
   "property": "C94",
   "status": "proved",
   "theorems": [
    "QMat.C94_collocation",
    "QMat.C94_double"
   ],
   "note": "The eigenvalues of scipy.linalg.eigh_tridiagonal enter with a bound of their errors. The bound of the entries uses Markov's inequality for the dependence of the Lagrange polynomials on the nodes and the Lebesgue constants of C93."
  },
  {
   "property": "C95",
   "status": "proved",
   "theorems": [
    "QMat.C95_nodes",
    "QMat.C95_equid",
    "QMat.C95_collocation",
    "QMat.C95_double"
   ],
   "note": "Eigenvalues: Weyl's inequality. The ratios of values of orthogonal polynomials at the ends are bounded in Lemmas/FloatNodes; the routines of scipy and numpy (eigh_tridiagonal, solve) enter with bounds of their errors."
  },
  {
   "property": "C96",
   "status": "proved",
   "theorems": [
    "QMat.C96_solve",
    "QMat.C96_collocation",
    "QMat.C96_limit",
    "QMat.C96_exists",
    "QMat.C96_small",
    "QMat.C96_diagonal",
    "QMat.C96_powers",
    "QMat.C96_double"
   ],
   "note": "Monitors are not modelled in rounded arithmetic (they do not change the values). np.linalg.solve enters with a bound of its residual."
  },
  {
   "property": "C97",
   "status": "proved",
   "theorems": [
    "QMat.C97_solve",
    "QMat.C97_exists",
    "QMat.C97_small",
    "QMat.C97_explicit",
    "QMat.C97_table",
    "QMat.C97_half",
    "QMat.C97_double"
   ],
   "note": "np.linalg.solve enters with a bound of its residual, scipy.linalg.eigh_tridiagonal and the FFT of the Fejer rule with bounds of their errors. The end-to-end statement in double precision assumes |lam dt| B <= 1/2."
  },
  {
   "property": "C98",
   "status": "proved",
   "theorems": [
    "QMat.C98_same",
    "QMat.C98_left",
    "QMat.C98_iff",
    "QMat.C98_rows_fails"
   ],
   "note": "Integers are unbounded in the model (64 bits in numpy)."
  },
  {
   "property": "C99",
   "status": "proved",
   "theorems": [
    "QMat.C99_input",
    "QMat.C99_stable",
    "QMat.C99_lazy",
    "QMat.C99_frozen",
    "QMat.C99_time",
    "QMat.C99_time_lazy",
    "QMat.C99_inputs_fails",
    "QMat.C99_Q_fails"
   ],
   "note": "getQDelta with its default copy; what is written into arrays returned without copy is C51."
  },
  {
   "property": "C100",
   "status": "proved",
   "theorems": [
    "QMat.C100_flex",
    "QMat.C100_flex_after",
    "QMat.C100_names",
    "QMat.C100_entries",
    "QMat.C100_relative",
    "QMat.C100_raises",
    "QMat.C100_rows",
    "QMat.C100_row_errors",
    "QMat.C100_SDelta",
    "QMat.C100_dTau"
   ],
   "note": "No overflow or underflow; TRAPAR with tLeft other than 0 can cancel and is left out of the relative bounds."
  },
  {
   "property": "C101",
   "status": "proved",
   "theorems": [
    "QMat.C101_solve",
    "QMat.C101_collocation",
    "QMat.C101_quarter",
    "QMat.C101_double"
   ],
   "note": "Assumptions on LAPACK (eigenvalues, solve) and on the Fejer weights of numpy as in C94-C97; no overflow or underflow."
  },
  {
   "property": "C102",
   "status": "proved",
   "theorems": [
    "QMat.C102_step",
    "QMat.C102_method",
    "QMat.C102_solve",
    "QMat.C102_method_solve",
    "QMat.C102_order",
    "QMat.C102_double",
    "QMat.C102_sdc_double",
    "QMat.C102_method_tol",
    "QMat.C102_tables_size",
    "QMat.C102_tables",
    "QMat.C102_flex_double"
   ],
   "note": "errorDahlquist itself is in exact arithmetic; in double precision the computed values are compared with the exact solution."
  },
  {
   "property": "C103",
   "status": "proved",
   "theorems": [
    "QMat.C103_backward",
    "QMat.C103_exists",
    "QMat.C103_double",
    "QMat.C103_qdelta"
   ],
   "note": "Backward error; a zero pivot (infinite or nan entries in numpy) is excluded by hypothesis."
  },
  {
   "property": "C104",
   "status": "proved",
   "theorems": [
    "QMat.C104_inverse",
    "QMat.C104_residual",
    "QMat.C104_residual_legendre",
    "QMat.C104_large",
    "QMat.C104_double"
   ],
   "note": "The factors are bounds, not the norms themselves."
  },
  {
   "property": "C105",
   "status": "proved",
   "theorems": [
    "QMat.C105_step",
    "QMat.C105_solve",
    "QMat.C105_denominator",
    "QMat.C105_reversible"
   ],
   "note": "Over exact complex numbers."
  },
  {
   "property": "C106",
   "status": "proved",
   "theorems": [
    "QMat.C106_contract",
    "QMat.C106_error",
    "QMat.C106_values"
   ],
   "note": "Over exact complex numbers."
  },
  {
   "property": "C107",
   "status": "proved",
   "theorems": [
    "QMat.C107_time_stepping",
    "QMat.C107_lu",
    "QMat.C107_q_based",
    "QMat.C107_minsrns",
    "QMat.C107_stiff_fails"
   ],
   "note": "Over exact complex numbers. LU: for any factorization of Q.T without row exchange. C107_stiff_fails records the divergence of TRAP (finding 28)."
  },
  {
   "property": "C108",
   "status": "proved",
   "theorems": [
    "QMat.C108_between",
    "QMat.C108_generator",
    "QMat.C108_rk",
    "QMat.C108_collocation",
    "QMat.C108_legendre",
    "QMat.C108_sdc",
    "QMat.C108_sdc_exact"
   ],
   "note": "Over exact real numbers. Tables with rounded decimals (tableAccuracy > 0) are not covered by C108_rk: their order conditions hold up to rounding only."
  },
  {
   "property": "C109",
   "status": "proved",
   "theorems": [
    "QMat.Registry.C109_import",
    "QMat.Registry.C109_first",
    "QMat.Registry.C109_interrupted",
    "QMat.Registry.C109_lost",
    "QMat.Registry.C109_retry",
    "QMat.Registry.C109_import_ends",
    "QMat.Registry.C109_reload",
    "QMat.Registry.C109_reload_module",
    "QMat.Registry.C109_repair",
    "QMat.Registry.C109_retry_fails",
    "QMat.Registry.C109_qdelta_sound",
    "QMat.Registry.C109_qdelta",
    "QMat.Registry.C109_qdelta_retry_fails",
    "QMat.Registry.C109_qcoeff_sound",
    "QMat.Registry.C109_qcoeff",
    "QMat.Registry.C109_qcoeff_retry_fails"
   ],
   "note": "Python's import system is modelled by its rules for sys.modules; class objects of repeated executions of a class statement are not distinguished; RK_SCHEMES is left out."
  },
  {
   "property": "C110",
   "status": "proved",
   "theorems": [
    "QMat.C110_sparse",
    "QMat.C110_sparse_reuse",
    "QMat.C110_periodic",
    "QMat.C110_scale_fails",
    "QMat.C110_extrapolation",
    "QMat.C110_extrapolation_default",
    "QMat.C110_hCoeffs"
   ],
   "note": "The bound with the power of h is for rows that are computed or copied from equal offsets; for all rows C110_sparse_reuse."
  },
  {
   "property": "C111",
   "status": "proved",
   "theorems": [
    "QMat.C111_calls",
    "QMat.C111_identity_fails",
    "QMat.C111_wait_free",
    "QMat.Registry.C111_registry_kept",
    "QMat.Registry.C111_register",
    "QMat.Registry.C111_getClasses",
    "QMat.Registry.C111_getClasses_quiet",
    "QMat.Registry.C111_register_fails",
    "QMat.Registry.C111_getClasses_fails",
    "QMat.C111_cached",
    "QMat.Registry.C111_refused"
   ],
   "note": "Single attribute and dictionary operations are atomic (as with the GIL or per-object locks)."
  },
  {
   "property": "C112",
   "status": "proved",
   "theorems": [
    "QMat.C112_rk_others",
    "QMat.C112_coefficients",
    "QMat.C112_step",
    "QMat.C112_round_trip",
    "QMat.C112_round_trip_symmetric",
    "QMat.C112_conserves",
    "QMat.C112_even_order",
    "QMat.C112_rk_step",
    "QMat.C112_euler",
    "QMat.C112_rk_solve"
   ],
   "note": "For nodes that the constructor has not moved to an end: LOBATTO always, symmetric GAUSS types with up to 158 nodes; in general Unmoved is a hypothesis."
  },
  {
   "property": "C113",
   "status": "proved",
   "theorems": [
    "QMat.C113_interpolation",
    "QMat.C113_integration",
    "QMat.C113_derivative",
    "QMat.C113_collocation",
    "QMat.C113_from_Q",
    "QMat.C113_timestepping",
    "QMat.C113_from_nodes",
    "QMat.C113_shift_fails",
    "QMat.C113_length_fails"
   ],
   "note": "For nodes that the constructor has not moved to an end (UnmovedOn): LOBATTO always, types with superconvergence on intervals that are Wide; C113_shift_fails and C113_length_fails are the cases where the claim does not hold."
  },
  {
   "property": "C114",
   "status": "proved",
   "theorems": [
    "QMat.C114_orders",
    "QMat.C114_estimate",
    "QMat.C114_dahlquist",
    "QMat.C114_reliable"
   ],
   "note": "Tables with rounded decimals carry a term with their accuracy (4e-26); ARK548L2SAESDIRK is excepted, see C32_embedded_fails."
  },
  {
   "property": "C115",
   "status": "proved",
   "theorems": [
    "QMat.C115_interpolation",
    "QMat.C115_round_trip",
    "QMat.C115_projection",
    "QMat.C115_integration",
    "QMat.C115_derivative",
    "QMat.C115_integral_of_derivative",
    "QMat.C115_intervals",
    "QMat.C115_two_levels",
    "QMat.C115_two_levels_fails",
    "QMat.C115_differential"
   ],
   "note": "C115_two_levels_fails shows that M < M' cannot be weakened to M <= M'; LEGENDRE_NUMPY and LEGENDRE_SCIPY under the assumption that the external rules are exact, as in C04."
  },
  {
   "property": "C116",
   "status": "proved",
   "theorems": [
    "QMat.C116_step",
    "QMat.C116_solve",
    "QMat.C116_refine",
    "QMat.C116_more_nodes",
    "QMat.C116_sign",
    "QMat.C116_enclosure",
    "QMat.C116_sdc",
    "QMat.C116_double"
   ],
   "note": "The limit for a growing number of nodes is stated for LOBATTO, whose nodes are never moved to the ends of the interval; exact arithmetic."
  },
  {
   "property": "C117",
   "status": "proved",
   "theorems": [
    "QMat.C117_unique",
    "QMat.C117_solvable",
    "QMat.C117_residuals",
    "QMat.C117_convergence"
   ],
   "note": "Solvability holds for all quadrature types, convergence for GAUSS and RADAU-RIGHT: C78_left_end_fails shows that the others can double a distance in one step. The step is the mathematical step with the coefficients of the generator; exact arithmetic."
  },
  {
   "property": "C118",
   "status": "proved",
   "theorems": [
    "QMat.C118_limit",
    "QMat.C118_end_node",
    "QMat.C118_order_fails",
    "QMat.C118_declared_order_fails"
   ],
   "note": "The step is the mathematical step with the coefficients of the generator; exact arithmetic. The negative part for Legendre nodes is stated for up to 158 nodes, where no node is moved to an end of the interval, and for every collocation without a node at 1 (C118_order_fails)."
  },
  {
   "property": "C119",
   "status": "proved",
   "theorems": [
    "QMat.C119_sweeps",
    "QMat.C119_solvable",
    "QMat.C119_error",
    "QMat.C119_convergence"
   ],
   "note": "The sweep is the mathematical sweep for a nonlinear equation with the coefficients of the generators; qmat itself only has the sweep for the Dahlquist equation (C106). Exact arithmetic; no node moved to an end of the interval by the 1e-14 rule (true up to 158 nodes)."
  },
  {
   "property": "C120",
   "status": "proved",
   "theorems": [
    "QMat.C120_residuals",
    "QMat.C120_solvable",
    "QMat.C120_convergence"
   ],
   "note": "The step is the mathematical step with the coefficients of the generator; exact arithmetic. Generalises C117 (mu = 0). No node moved to an end of the interval by the 1e-14 rule (true up to 158 nodes)."
  },
  {
   "property": "C121",
   "status": "proved",
   "theorems": [
    "QMat.C121_unscaled",
    "QMat.C121_recovers",
    "QMat.C121_stop",
    "QMat.C121_scaled_fails",
    "QMat.C121_negative_fails"
   ],
   "note": "Single clock readings and attribute accesses are atomic, as in C111; findings C121_scaled_fails, C121_negative_fails."
  },
  {
   "property": "C122",
   "status": "proved",
   "theorems": [
    "QMat.C122_sweeps",
    "QMat.C122_solvable",
    "QMat.C122_order"
   ],
   "note": "The sweep is the one of solveDahlquistSDC with lam u replaced by f(t, u) at the times of the nodes (the library solves u' = lam u only; its coefficients are meant for this use). Removes the restriction of C84 to autonomous equations. Exact arithmetic."
  }
 ]
}