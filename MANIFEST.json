{
 "claims": [
  {
   "property": "C01",
   "status": "proved",
   "theorems": [
    "SMT.Options.C01_read_last_accepted_write",
    "SMT.Options.C01_set_guard",
    "SMT.Options.C01_update_all_ok",
    "SMT.Options.C01_membership"
   ],
   "note": "Model: Options/Model.lean. All histories of declare/set/update."
  },
  {
   "property": "C02",
   "status": "proved",
   "theorems": [
    "SMT.Options.C02_stored_values_valid",
    "SMT.Options.C02_readable_iff_declared",
    "SMT.Options.C02_hole_failed_redeclare",
    "SMT.Options.C02_hole_values_and_types"
   ],
   "note": "Holds for histories where no declare raised; the hole for raising re-declarations and the values+types hole are proved as counterexamples."
  },
  {
   "property": "C03",
   "status": "proved",
   "theorems": [
    "SMT.Options.C03_independence",
    "SMT.Options.C03_clone_equal"
   ],
   "note": "Heap model with explicit dict references; all programs over any number of objects."
  },
  {
   "property": "C04",
   "status": "proved",
   "theorems": [
    "SMT.Surrogate.C04_store_is_last_accepted",
    "SMT.Surrogate.C04_raise_changes_nothing",
    "SMT.Surrogate.C04_update_values",
    "SMT.Surrogate.C04_rows_agree",
    "SMT.Surrogate.C04_dims"
   ],
   "note": "All histories of all four setters; row-count agreement excludes update_training_derivatives (see C05)."
  },
  {
   "property": "C05",
   "status": "partial",
   "theorems": [
    "SMT.Surrogate.C05_exact_behaviour",
    "SMT.Surrogate.C05_breaks_row_invariant",
    "SMT.Surrogate.C05_rejects_update_of_set_derivative",
    "SMT.Surrogate.C05_update_derivs_partial"
   ],
   "note": "The documented behaviour is false of the code (off-by-one key): exact behaviour proved, violations exhibited, documented behaviour proved where the two coincide."
  },
  {
   "property": "C06",
   "status": "proved",
   "theorems": [
    "SMT.Surrogate.C06_predict_values",
    "SMT.Surrogate.C06_predict_derivatives",
    "SMT.Surrogate.C06_predict_variances",
    "SMT.Surrogate.C06_unsupported",
    "SMT.Surrogate.C06_zero_points",
    "SMT.Surrogate.C06_vector_is_column"
   ],
   "note": "Exact acceptance condition and result shape for predict_values/derivatives/variances; zero points raise."
  },
  {
   "property": "C07",
   "status": "proved",
   "theorems": [
    "SMT.Caching.C07_transparent",
    "SMT.Caching.C07_returns",
    "SMT.Caching.C07_second_run_is_a_hit",
    "SMT.Caching.C07_rbf_hit_loses_matrix",
    "SMT.Caching.C07_rbf_solution"
   ],
   "note": "Pickle store as a finite map keyed by path and checksum; all call sequences."
  },
  {
   "property": "C08",
   "status": "proved",
   "theorems": [
    "SMT.Caching.C08_no_write_without_dir",
    "SMT.Caching.C08_no_write_on_exception",
    "SMT.Caching.C08_only_own_unreadable_file",
    "SMT.Caching.C08_writes_on_success",
    "SMT.Caching.C08_none_dir_is_loaded",
    "SMT.Caching.C08_checksum_printer"
   ],
   "note": "All call sequences and failing computations."
  },
  {
   "property": "C09",
   "status": "proved",
   "theorems": [
    "SMT.Printer.C09_depth",
    "SMT.Printer.C09_balanced",
    "SMT.Printer.C09_output",
    "SMT.Printer.C09_inactive",
    "SMT.Printer.C09_times",
    "SMT.Printer.C09_exception_leaks_depth"
   ],
   "note": "All programs of nested timed sections, including raising ones."
  },
  {
   "property": "C10",
   "status": "proved",
   "theorems": [
    "SMT.Sampling.C10_scale_entry",
    "SMT.Sampling.C10_scale_length",
    "SMT.Sampling.C10_in_bounds",
    "SMT.Sampling.C10_monotone",
    "SMT.Sampling.C10_random"
   ],
   "note": "All designs over any ordered field; random method for every generator with values in the unit interval. pyDOE2's lhs not modelled."
  },
  {
   "property": "C11",
   "status": "proved",
   "theorems": [
    "SMT.Sampling.C11_level_loop_terminates",
    "SMT.Sampling.C11_number_of_points"
   ],
   "note": "All nx>=1, nt, weights; loop modelled with fuel, shown to stop within nt rounds and to be fuel-independent."
  },
  {
   "property": "C12",
   "status": "proved",
   "theorems": [
    "SMT.Sampling.C12_distinct_grid_points"
   ],
   "note": "Rows distinct, on the level grid, complete with clip."
  },
  {
   "property": "C13",
   "status": "proved",
   "theorems": [
    "SMT.Ese.C13_columns_rearranged",
    "SMT.Ese.C13_latin_result",
    "SMT.Ese.C13_points_stay_distinct",
    "SMT.Ese.C13_returns",
    "SMT.Ese.C13_single_point_diverges"
   ],
   "note": "Every generator (arbitrary state machine), every temperature/loop count; exact reals."
  },
  {
   "property": "C14",
   "status": "proved",
   "theorems": [
    "SMT.Ese.C14_incremental_exact",
    "SMT.Ese.C14_never_worse",
    "SMT.Ese.C14_temperature_schedule",
    "SMT.Ese.C14_ese",
    "SMT.Ese.C14_inner_loop",
    "SMT.Ese.C14_inner_iteration"
   ],
   "note": "Incremental criterion identity for all designs; unreachable temperature branch proved."
  },
  {
   "property": "C15",
   "status": "proved",
   "theorems": [
    "SMT.MixedInt.C15_fold_unfold",
    "SMT.MixedInt.C15_unfold_fold",
    "SMT.MixedInt.C15_negative_index_wraps"
   ],
   "note": "All type lists and points; a negative enumeration index wraps (proved)."
  },
  {
   "property": "C16",
   "status": "proved",
   "theorems": [
    "SMT.MixedInt.C16_cast_blockwise",
    "SMT.MixedInt.C16_idempotent",
    "SMT.MixedInt.C16_one_hot_iff_unique_max",
    "SMT.MixedInt.C16_tie_not_one_hot"
   ],
   "note": "Exact fields; rounding is numpy's half-to-even; ties in an enumeration block proved to break one-hot."
  },
  {
   "property": "C17",
   "status": "proved",
   "theorems": [
    "SMT.MixedInt.C17_check_accepts_iff",
    "SMT.MixedInt.C17_dimension",
    "SMT.MixedInt.C17_unfolded_limits"
   ],
   "note": "All type lists."
  },
  {
   "property": "C18",
   "status": "proved",
   "theorems": [
    "SMT.MixedInt.C18_sampling_discrete",
    "SMT.MixedInt.C18_same_choice_same_prediction",
    "SMT.MixedInt.C18_unfolded_prediction_of_cast",
    "SMT.MixedInt.C18_discrete_training_row_is_prediction_row",
    "SMT.MixedInt.C18_training_not_cast",
    "SMT.MixedInt.C18_level_labels"
   ],
   "note": "The missing cast of training points is proved as a counterexample (C18_training_not_cast)."
  },
  {
   "property": "C19",
   "status": "proved",
   "theorems": [
    "SMT.Ego.C19_history_consistent",
    "SMT.Ego.C19_history_exact",
    "SMT.Ego.C19_full_budget",
    "SMT.Ego.C19_mixed_integer_not_rounded",
    "SMT.Ego.C19_reports_non_integer",
    "SMT.Ego.C19_initial_design_evaluated_unfolded"
   ],
   "note": "Every oracle for the criterion optimiser and every objective; all iteration counts."
  },
  {
   "property": "C20",
   "status": "proved",
   "theorems": [
    "SMT.Ego.C20_find_best_point",
    "SMT.Ego.C20_single_attempt_always_fails",
    "SMT.Ego.C20_returns_best",
    "SMT.Ego.C20_never_worse_than_initial"
   ],
   "note": "All budgets; the wasted last attempt is proved (C20)."
  },
  {
   "property": "C21",
   "status": "proved",
   "theorems": [
    "SMT.Ego.C21_is_expected_improvement",
    "SMT.Ego.C21_nonneg",
    "SMT.Ego.C21_zero_without_uncertainty",
    "SMT.Ego.C21_monotone",
    "SMT.Ego.C21_at_least_mean_improvement",
    "SMT.Ego.C21_tunneling_bounds",
    "SMT.Ego.C21_virtual_points_ordered"
   ],
   "note": "Over the reals, Gaussian cdf as an integral."
  },
  {
   "property": "C22",
   "status": "proved",
   "theorems": [
    "SMT.Index.C22_contract_expand",
    "SMT.Index.C22_expand_in_shape",
    "SMT.Index.C22_expand_contract",
    "SMT.Index.C22_row_major",
    "SMT.Index.C22_lex"
   ],
   "note": "All shapes and indices."
  },
  {
   "property": "C23",
   "status": "proved",
   "theorems": [
    "SMT.BSpline.C23_is_cox_de_boor",
    "SMT.BSpline.C23_local_support",
    "SMT.BSpline.C23_partition_of_unity",
    "SMT.BSpline.C23_span_search",
    "SMT.BSpline.C23_right_end_not_found",
    "SMT.BSpline.C23_uniform"
   ],
   "note": "All orders, all control point counts, exact fields."
  },
  {
   "property": "C24",
   "status": "proved",
   "theorems": [
    "SMT.BSpline.C24_first_derivative",
    "SMT.BSpline.C24_second_derivative",
    "SMT.BSpline.C24_interior",
    "SMT.BSpline.C24_derivatives_sum_to_zero"
   ],
   "note": "All orders; derivative in every open knot span, over the reals."
  },
  {
   "property": "C25",
   "status": "proved",
   "theorems": [
    "SMT.Rmtb.C25_row",
    "SMT.Rmtb.C25_is_tensor_product_spline",
    "SMT.Rmtb.C25_prediction_between_coefficients"
   ],
   "note": "All dimensions, orders and control point counts."
  },
  {
   "property": "C26",
   "status": "proved",
   "theorems": [
    "SMT.Rmtc.C26_is_hermite",
    "SMT.Rmtc.C26_find_interval",
    "SMT.Rmtc.C26_node_value",
    "SMT.Rmtc.C26_node_slope",
    "SMT.Rmtc.C26_derivative"
   ],
   "note": "All dimensions and element counts; C1 joining across element faces."
  },
  {
   "property": "C27",
   "status": "proved",
   "theorems": [
    "SMT.Rmts.C27_gradient",
    "SMT.Rmts.C27_hessian",
    "SMT.Rmts.C27_dgrad_dyt",
    "SMT.Rmts.C27_quadratic_symmetric"
   ],
   "note": "Objective as a finite weighted sum; derivative along every direction."
  },
  {
   "property": "C28",
   "status": "proved",
   "theorems": [
    "SMT.Rmts.C28_value_outside",
    "SMT.Rmts.C28_inactive_inside",
    "SMT.Rmts.C28_no_extrapolation",
    "SMT.Rmts.C28_derivative_outside_not_zero",
    "SMT.Rmts.C28_derivative",
    "SMT.Rmts.C28_rmtb_value",
    "SMT.Rmts.C28_rmtb_derivative",
    "SMT.Rmts.C28_rmtc_value",
    "SMT.Rmts.C28_rmtc_derivative",
    "SMT.Rmts.C28_rmtb_derivative_everywhere"
   ],
   "note": "General statement, instantiated for RMTB and RMTC."
  },
  {
   "property": "C29",
   "status": "proved",
   "theorems": [
    "SMT.Idw.C29_interpolates",
    "SMT.Idw.C29_shepard",
    "SMT.Idw.C29_bounded",
    "SMT.Idw.C29_order_independent",
    "SMT.Idw.C29_output_derivatives"
   ],
   "note": "Duplicates: the first wins."
  },
  {
   "property": "C30",
   "status": "proved",
   "theorems": [
    "SMT.Idw.C30_derivative_at_training_point",
    "SMT.Idw.C30_derivative"
   ],
   "note": "Over the reals, any p>1 at training points, any p>0 elsewhere."
  },
  {
   "property": "C31",
   "status": "proved",
   "theorems": [
    "SMT.Rbf.C31_predictor",
    "SMT.Rbf.C31_symmetric",
    "SMT.Rbf.C31_residual",
    "SMT.Rbf.C31_trend_orthogonality",
    "SMT.Rbf.C31_trains_uniquely",
    "SMT.Rbf.C31_trains_uniquely_distinct",
    "SMT.Rbf.C31_derivative",
    "SMT.Rbf.C31_output_derivatives",
    "SMT.Rbf.C31_bad_degree"
   ],
   "note": "The factorisation is a parameter assumed to solve the system; training proved unique for distinct points with any unisolvent trend and reg >= 0, as well as with reg > 0 and no trend."
  },
  {
   "property": "C32",
   "status": "proved",
   "theorems": [
    "SMT.Qp.C32_columns",
    "SMT.Qp.C32_predict_is_quadratic",
    "SMT.Qp.C32_taylor",
    "SMT.Qp.C32_derivative",
    "SMT.Qp.C32_derivative_shapes",
    "SMT.Qp.C32_refuses",
    "SMT.Qp.C32_recovers",
    "SMT.Qp.C32_least_squares"
   ],
   "note": "All dimensions; training with np.linalg.inv as a parameter satisfying the inverse equations."
  },
  {
   "property": "C33",
   "status": "proved",
   "theorems": [
    "SMT.Qp.C33_derivative",
    "SMT.Qp.C33_derivative_real"
   ],
   "note": "scikit-learn's fit is a parameter (coefficients arbitrary)."
  },
  {
   "property": "C34",
   "status": "proved",
   "theorems": [
    "SMT.Krg.C34_bounds"
   ],
   "note": "All four kernels, all dimensions, theta >= 0."
  },
  {
   "property": "C35",
   "status": "proved",
   "theorems": [
    "SMT.Krg.C35_gradient",
    "SMT.Krg.C35_hessian",
    "SMT.Krg.C35_act_exp",
    "SMT.Krg.C35_act_exp_raises"
   ],
   "note": "All kernels incl. act_exp; Matern 3/2 away from the pole 1+sqrt3*theta*d=0 (never met for theta,d >= 0)."
  },
  {
   "property": "C36",
   "status": "proved",
   "theorems": [
    "SMT.Krg.C36_chunks",
    "SMT.Krg.C36_chunk_count",
    "SMT.Krg.C36_rowwise",
    "SMT.Krg.C36_componentwise"
   ],
   "note": "Every chunk size > 0 and every row count."
  },
  {
   "property": "C37",
   "status": "proved",
   "theorems": [
    "SMT.Krg.C37_table",
    "SMT.Krg.C37_pairs",
    "SMT.Krg.C37_matrix",
    "SMT.Krg.C37_symmetric",
    "SMT.Krg.C37_differences"
   ],
   "note": "All sample counts, any even or non-even kernel function."
  },
  {
   "property": "C38",
   "status": "proved",
   "theorems": [
    "SMT.Krg.C38_roundtrip",
    "SMT.Krg.C38_centred",
    "SMT.Krg.C38_unit_variance",
    "SMT.Krg.C38_unit"
   ],
   "note": "All data; scale_X_to_unit divides by zero on constant columns (stated as a theorem)."
  },
  {
   "property": "C39",
   "status": "proved",
   "theorems": [
    "SMT.Krg.C39_blup",
    "SMT.Krg.C39_training_prediction",
    "SMT.Krg.C39_interpolates",
    "SMT.Krg.C39_kernels"
   ],
   "note": "Cholesky and QR are parameters assumed correct (CholOk/QROk); solve_triangular is modelled as substitution. Any nugget and noise: exact deviation stated."
  },
  {
   "property": "C40",
   "status": "proved",
   "theorems": [
    "SMT.Krg.C40_nonneg",
    "SMT.Krg.C40_zero_at_training",
    "SMT.Krg.C40_clip_inactive_kernels",
    "SMT.Krg.C40_clip_inactive"
   ],
   "note": "Non-negativity, zero at training points, and that clipping is inactive for all four stationary kernels."
  },
  {
   "property": "C41",
   "status": "proved",
   "theorems": [
    "SMT.Krg.C41_reported",
    "SMT.Krg.C41_one_column",
    "SMT.Krg.C41_two_columns_wrong",
    "SMT.Krg.C41_linear_trend_wrong",
    "SMT.Krg.C41_linear_trend_instance"
   ],
   "note": "Equality proved for one-column trends; the reported formula and its difference from the universal-Kriging variance proved for two-column trends (the code is wrong there), and for every trained one-input linear-trend model the difference is unbounded unless the constant and the input are orthogonal for the inverse correlation matrix, with a concrete trained squared-exponential model."
  },
  {
   "property": "C42",
   "status": "proved",
   "theorems": [
    "SMT.Krg.C42_constant",
    "SMT.Krg.C42_linear",
    "SMT.Krg.C42_kpls",
    "SMT.Krg.C42_raises"
   ],
   "note": "Kriging/KPLSK and KPLS hyper-parameters, constant and linear trend; other combinations raise."
  },
  {
   "property": "C43",
   "status": "proved",
   "theorems": [
    "SMT.Krg.C43_columns",
    "SMT.Krg.C43_monomials"
   ],
   "note": "All dimensions."
  },
  {
   "property": "C44",
   "status": "proved",
   "theorems": [
    "SMT.LineSearch.C44_returns_first_armijo_step",
    "SMT.LineSearch.C44_never_increases",
    "SMT.LineSearch.C44_fuel_irrelevant",
    "SMT.LineSearch.C44_ascent_diverges",
    "SMT.LineSearch.C44_terminates"
   ],
   "note": "Exact arithmetic; termination proved over the reals for every descent direction; divergence on ascent directions proved."
  },
  {
   "property": "C45",
   "status": "proved",
   "theorems": [
    "SMT.LineSearch.C45_cubic_in_bracket",
    "SMT.LineSearch.C45_cubic_raises",
    "SMT.LineSearch.C45_returned_step_is_wolfe",
    "SMT.LineSearch.C45_gives_up_only_when",
    "SMT.LineSearch.C45_gives_up_on_linear",
    "SMT.LineSearch.C45_quadratic_minimiser",
    "SMT.LineSearch.C45_bisection_terminates",
    "SMT.LineSearch.C45_quadratic_terminates"
   ],
   "note": "Exact arithmetic; termination of the bisecting and quadratic searches proved over the reals (0<2u1<u2<1). No termination theorem for the cubic rule (it can raise, which is proved)."
  },
  {
   "property": "C46",
   "status": "proved",
   "theorems": [
    "SMT.Solvers.C46_gs_sweeps_energy",
    "SMT.Solvers.C46_gs_converges",
    "SMT.Solvers.C46_jacobi_fixed_iff",
    "SMT.Solvers.C46_gs_fixed_iff",
    "SMT.Solvers.C46_stationary_keeps_solution",
    "SMT.Solvers.C46_direct_exact",
    "SMT.Solvers.C46_chol_exact",
    "SMT.Solvers.C46_chol_not_in_place",
    "SMT.Solvers.C46_stationary_linear",
    "SMT.Solvers.C46_valid_names",
    "SMT.Solvers.C46_other_names",
    "SMT.Solvers.C46_krylov_dense_unpreconditioned",
    "SMT.Solvers.C46_clone_forgets",
    "SMT.Solvers.C46_multigrid_null",
    "SMT.Solvers.C46_multigrid_without_operators",
    "SMT.Solvers.C46_jacobi_contracts",
    "SMT.Solvers.C46_gs_energy"
   ],
   "note": "Exact arithmetic; SciPy factorisations are exact solves; Krylov iterations themselves are SciPy and not modelled."
  },
  {
   "property": "C47",
   "status": "proved",
   "theorems": [
    "SMT.Moe.C47_split_partition",
    "SMT.Moe.C47_split_sizes",
    "SMT.Moe.C47_clusters_partition",
    "SMT.Moe.C47_criterion_unusable",
    "SMT.Moe.C47_check_inputs"
   ],
   "note": "The classifier (sklearn) is an arbitrary label list."
  },
  {
   "property": "C48",
   "status": "proved",
   "theorems": [
    "SMT.Moe.C48_probabilities",
    "SMT.Moe.C48_smooth_convex",
    "SMT.Moe.C48_smooth_zero_far",
    "SMT.Moe.C48_smooth_variance",
    "SMT.Moe.C48_hard_most_probable",
    "SMT.Moe.C48_hard_largest_density",
    "SMT.Moe.C48_single_cluster",
    "SMT.Moe.C48_experts_agree",
    "SMT.Moe.C48_smooth_continuous"
   ],
   "note": "Mixture weights and densities (sklearn/scipy) are arbitrary non-negative functions."
  },
  {
   "property": "C49",
   "status": "proved",
   "theorems": [
    "SMT.Vfm.C49_interpolates_high_fidelity",
    "SMT.Vfm.C49_derivatives_exact",
    "SMT.Vfm.C49_interpolates_gradients"
   ],
   "note": "One output; surrogate classes are arbitrary functions of options and data."
  },
  {
   "property": "C50",
   "status": "proved",
   "theorems": [
    "SMT.NestedLhs.C50_nearest_unused",
    "SMT.NestedLhs.C50_nested",
    "SMT.NestedLhs.C50_total",
    "SMT.NestedLhs.C50_ties_fail",
    "SMT.NestedLhs.C50_equidistant_fails"
   ],
   "note": "The drawn plans and the Euclidean distance are parameters."
  },
  {
   "property": "C51",
   "status": "proved",
   "theorems": [
    "SMT.Problems.C51_sphere",
    "SMT.Problems.C51_rosenbrock",
    "SMT.Problems.C51_branin",
    "SMT.Problems.C51_tensor_product",
    "SMT.Problems.C51_tensor_product_out_of_range",
    "SMT.Problems.C51_cantilever",
    "SMT.Problems.C51_robot_arm_value",
    "SMT.Problems.C51_robot_arm",
    "SMT.Problems.C51_robot_arm_out_of_range",
    "SMT.Problems.C51_lp_norm",
    "SMT.Problems.C51_lp_norm_order_three"
   ],
   "note": "All seven analytic problems, any dimension. LpNorm for orders 1 and 2 only, because the code raises for order >= 3 (C51_lp_norm_order_three); out-of-range kx recorded as violations."
  },
  {
   "property": "C52",
   "status": "proved",
   "theorems": [
    "SMT.Problems.C52_accepted",
    "SMT.Problems.C52_reduced",
    "SMT.Problems.C52_exact",
    "SMT.Problems.C52_int",
    "SMT.Problems.C52_duplicate",
    "SMT.Problems.C52_ndim_rosenbrock",
    "SMT.Problems.C52_ndim_cantilever",
    "SMT.Problems.C52_ndim_robot_arm",
    "SMT.Problems.C52_ndim_step_domain",
    "SMT.Problems.C52_ndim_step"
   ],
   "note": "General in the inner problem; instances for the four ndim families; repeated indices violate exactness (C52_duplicate)."
  },
  {
   "property": "C53",
   "status": "proved",
   "theorems": [
    "SMT.Nn.C53_activation",
    "SMT.Nn.C53_jacobian",
    "SMT.Nn.C53_backprop",
    "SMT.Nn.C53_failures",
    "SMT.Nn.C53_gamma_wrong"
   ],
   "note": "Real arithmetic. Networks of any depth as an inductive family; the cost has the quadratic data term, the L2 penalty and the gradient-enhancement term. gamma in {0,1} proved exact; 0<gamma<1 proved wrong (code defect)."
  },
  {
   "property": "C54",
   "status": "proved",
   "theorems": [
    "SMT.Rmtb.C54_derivative_everywhere",
    "SMT.Rmtb.C54_continuous",
    "SMT.Rmtb.C54_derivative",
    "SMT.Rmtb.C54_right_derivative"
   ],
   "note": "Everywhere inside the clamped range for order 3 and more (order 4 for second derivatives along the same input); the one-sided statements cover the lower orders."
  },
  {
   "property": "C55",
   "status": "proved",
   "theorems": [
    "SMT.LineSearch.C55_newton_step_with_backtracking",
    "SMT.Rmts.C55_newton_descent",
    "SMT.Rmts.C55_quadratic_one_step",
    "SMT.Rmts.C55_newton_monotone",
    "SMT.Rmts.C55_solve_monotone",
    "SMT.Rmts.C55_newton_stops",
    "SMT.Rmts.C55_zero_outputs_no_matrix"
   ],
   "note": "All step lengths satisfying the line-search hypothesis."
  },
  {
   "property": "C56",
   "status": "proved",
   "theorems": [
    "SMT.Rmts.C56_rmtb_cache_independent_of_limits",
    "SMT.Rmts.C56_rmtc_cache_independent_of_limits",
    "SMT.Rmts.C56_energy_is_mean_square"
   ],
   "note": "RMTB and RMTC."
  },
  {
   "property": "C57",
   "status": "proved",
   "theorems": [
    "SMT.Rmts.C57_quadrature_points",
    "SMT.Rmts.C57_strictly_inside"
   ],
   "note": "All dimensions and element counts."
  },
  {
   "property": "C58",
   "status": "proved",
   "theorems": [
    "SMT.Krg.C58_exponential",
    "SMT.Krg.C58_matern",
    "SMT.Krg.C58_abs_exp_kink",
    "SMT.Krg.C58_pls"
   ],
   "note": "All kernels and PLS distances; abs_exp away from its kinks, where non-differentiability is proved."
  },
  {
   "property": "C59",
   "status": "proved",
   "theorems": [
    "SMT.Krg.C59_variance_derivative",
    "SMT.Krg.C59_reported_variance",
    "SMT.Krg.C59_jacobians"
   ],
   "note": "One prediction point (the code raises for several)."
  },
  {
   "property": "C60",
   "status": "proved",
   "theorems": [
    "SMT.Moe.C60_best_has_least_score",
    "SMT.Moe.C60_enabled",
    "SMT.Moe.C60_empty_selection_not_reported",
    "SMT.Moe.C60_heaviside_never_worse",
    "SMT.Moe.C60_score_is_not_an_error",
    "SMT.Moe.C60_mirrored_expert_ties"
   ],
   "note": "Training and predicting the experts is a parameter (scores, test errors); the singular value is specified by its variational characterisation."
  },
  {
   "property": "C61",
   "status": "proved",
   "theorems": [
    "SMT.Vfm.C61_option_dictionaries_mutated",
    "SMT.Vfm.C61_shared_dictionary_fails",
    "SMT.Vfm.C61_succeeds_iff",
    "SMT.Vfm.C61_frozen",
    "SMT.Vfm.C61_first_prediction_freezes",
    "SMT.Vfm.C61_missing_data"
   ],
   "note": "Option dictionaries are heap objects with the entry \"deriv\" and an opaque rest."
  },
  {
   "property": "C63",
   "status": "proved",
   "theorems": [
    "SMT.Krg.C63_value",
    "SMT.Krg.C63_minimum",
    "SMT.Krg.C63_gradient",
    "SMT.Krg.C63_log10",
    "SMT.Krg.C63_kernels"
   ],
   "note": "Value, optimality of the trend, gradient for the four kernels (C63_kernels) and for any differentiable family of even kernels (C63_gradient), log10 chain rule. Cholesky and QR are oracles with their contracts. The ill-conditioned-G exits are not modelled; the MGP prior is not included."
  },
  {
   "property": "C64",
   "status": "proved",
   "theorems": [
    "SMT.Krg.C64_hessian",
    "SMT.Krg.C64_kernels"
   ],
   "note": "C64_hessian for any differentiable family, C64_kernels for the four kernels. dof = nt; the formula uses 1/nt throughout, so it would be wrong for the multi-fidelity dof, but only MGP calls it."
  },
  {
   "property": "C66",
   "status": "proved",
   "theorems": [
    "SMT.Nn.C66_exact_derivative",
    "SMT.Nn.C66_predict_derivatives",
    "SMT.Nn.C66_single_point",
    "SMT.Nn.C66_outputs_ne_inputs",
    "SMT.Nn.C66_outputs_eq_inputs",
    "SMT.Nn.C66_normalise",
    "SMT.Nn.C66_standardised",
    "SMT.Nn.C66_rsquare"
   ],
   "note": "Exact derivative theorem; the failing array shapes are modelled with NumPy broadcasting and proved to fail."
  },
  {
   "property": "C67",
   "status": "proved",
   "theorems": [
    "SMT.Nn.C67_batches",
    "SMT.Nn.C67_pairs_preserved",
    "SMT.Nn.C67_derivatives_preserved",
    "SMT.Nn.C67_fails_iff",
    "SMT.Nn.C67_single_example_batch"
   ],
   "note": "The permutation is an oracle argument."
  },
  {
   "property": "C68",
   "status": "proved",
   "theorems": [
    "SMT.Nn.C68_line_search_terminates",
    "SMT.Nn.C68_six_trials",
    "SMT.Nn.C68_gd_step",
    "SMT.Nn.C68_may_return_worse",
    "SMT.Nn.C68_betas_ignored",
    "SMT.Nn.C68_adam_step",
    "SMT.Nn.C68_history",
    "SMT.Nn.C68_no_early_stop",
    "SMT.Nn.C68_terminates"
   ],
   "note": "np.sqrt and machine epsilon are parameters of the Adam update; NaN not modelled."
  },
  {
   "property": "C69",
   "status": "proved",
   "theorems": [
    "SMT.Mfk.C69_recursion",
    "SMT.Mfk.C69_training_prediction",
    "SMT.Mfk.C69_interpolates",
    "SMT.Mfk.C69_high_fidelity",
    "SMT.Mfk.C69_too_few_points",
    "SMT.Mfk.C69_trains"
   ],
   "note": "Levels, scaling and regressors as in mfk.py; factorisations are parameters (with a proved instance); theta, noise fixed per level (optimisation outside)."
  },
  {
   "property": "C70",
   "status": "proved",
   "theorems": [
    "SMT.Mfk.C70_constant",
    "SMT.Mfk.C70_linear",
    "SMT.Mfk.C70_linear_one_input",
    "SMT.Mfk.C70_raises"
   ],
   "note": "As C69; squared exponential only (others raise)."
  },
  {
   "property": "C71",
   "status": "proved",
   "theorems": [
    "SMT.Mfk.C71_one_level",
    "SMT.Mfk.C71_two_levels",
    "SMT.Mfk.C71_pls_half",
    "SMT.Mfk.C71_zero_at_nested",
    "SMT.Mfk.C71_not_nested",
    "SMT.Mfk.C71_nonneg",
    "SMT.Mfk.C71_three_levels",
    "SMT.Mfk.C71_three_levels_wrong"
   ],
   "note": "Theorems state what the code returns, including the defects at three levels and in the PLS variants."
  },
  {
   "property": "C73",
   "status": "proved",
   "theorems": [
    "SMT.Krg.C73_kernels_psd",
    "SMT.Krg.C73_kernels_pd",
    "SMT.Krg.C73_pls_psd",
    "SMT.Krg.C73_trains_nugget",
    "SMT.Krg.C73_trains_distinct",
    "SMT.Krg.C73_duplicates_fail",
    "SMT.Krg.C73_trains_iff",
    "SMT.Krg.C73_trains_and_interpolates"
   ],
   "note": "Real arithmetic: the rounding that makes nearly-coincident points fail is not modelled. act_exp excluded here (C74)."
  },
  {
   "property": "C65",
   "status": "proved",
   "theorems": [
    "SMT.Krg.Optim.C65_trend_data_fails",
    "SMT.Krg.Optim.C65_as_many_trends_as_points",
    "SMT.Krg.Optim.C65_constant_output",
    "SMT.Krg.Optim.C65_trains",
    "SMT.Krg.Optim.C65_terminates",
    "SMT.Krg.Optim.C65_sound",
    "SMT.Krg.Optim.C65_first_success",
    "SMT.Krg.Optim.C65_better_run",
    "SMT.Krg.Optim.C65_better_of_two",
    "SMT.Krg.Optim.C65_never_finite",
    "SMT.Krg.Optim.C65_all_infinite",
    "SMT.Krg.Optim.C65_untrained",
    "SMT.Krg.Optim.C65_all_raise",
    "SMT.Krg.Optim.C65_no_budget",
    "SMT.Krg.Optim.C65_budget",
    "SMT.Krg.Optim.C65_after_failure",
    "SMT.Krg.Optim.C65_start_in_bounds",
    "SMT.Krg.Optim.C65_start_length",
    "SMT.Krg.Optim.C65_noise_retries",
    "SMT.Krg.Optim.C65_retries_useless"
   ],
   "note": "scipy optimisers are arbitrary sequences of evaluations and outcomes. NaN likelihoods, the KPLSK second pass and the conditioning test are not modelled."
  },
  {
   "property": "C72",
   "status": "proved",
   "theorems": [
    "SMT.Params.C72_mfk_theta_lengths",
    "SMT.Params.C72_mfk_passes",
    "SMT.Params.C72_mfk_starts",
    "SMT.Params.C72_mfk_again",
    "SMT.Params.C72_mfk_other_sizes",
    "SMT.Params.C72_mfk_array",
    "SMT.Params.C72_mfk_failure_locks",
    "SMT.Params.C72_mfk_one_level",
    "SMT.Params.C72_mfk_eval_noise",
    "SMT.Params.C72_mfk_het",
    "SMT.Params.C72_mfk_het_arrays",
    "SMT.Params.C72_mfk_noise",
    "SMT.Params.C72_krg_passes",
    "SMT.Params.C72_krg_array_of_one",
    "SMT.Params.C72_krg_result",
    "SMT.Params.C72_krg_again",
    "SMT.Params.C72_krg_other_inputs",
    "SMT.Params.C72_krg_from_one_input",
    "SMT.Params.C72_het_other_points",
    "SMT.Params.C72_kplsk_forgets",
    "SMT.Params.C72_mgp"
   ],
   "note": "Options as a state machine over trainings; the training of a level is a parameter (which level raises). The state after training and the lock-in after a failure are behaviours of the code that contradict the intent (see DESIGN section 4)."
  },
  {
   "property": "C74",
   "status": "proved",
   "theorems": [
    "SMT.Mgp.C74_kernel",
    "SMT.Mgp.C74_kernel_derivatives",
    "SMT.Mgp.C74_prior",
    "SMT.Mgp.C74_gradient",
    "SMT.Mgp.C74_hessian",
    "SMT.Mgp.C74_inv_sigma",
    "SMT.Mgp.C74_psd",
    "SMT.Mgp.C74_trains_nugget",
    "SMT.Mgp.C74_trains_iff"
   ],
   "note": "Proved for all data; Cholesky and QR are parameters with their defining properties (exact routines exist). eval_noise=False."
  },
  {
   "property": "C75",
   "status": "proved",
   "theorems": [
    "SMT.Mgp.C75_roundtrip",
    "SMT.Mgp.C75_smallest",
    "SMT.Mgp.C75_predict_embedding",
    "SMT.Mgp.C75_active_subspace",
    "SMT.Mgp.C75_value_of_coordinates",
    "SMT.Mgp.C75_value_is_kriging",
    "SMT.Mgp.C75_interpolates",
    "SMT.Mgp.C75_accepts"
   ],
   "note": "Proved for all data; QR of the embedding is a parameter with its defining property."
  },
  {
   "property": "C76",
   "status": "proved",
   "theorems": [
    "SMT.Mgp.C76_raises_iff",
    "SMT.Mgp.C76_reported",
    "SMT.Mgp.C76_at_least",
    "SMT.Mgp.C76_zero_at_training",
    "SMT.Mgp.C76_units",
    "SMT.Mgp.C76_not_scale_equivariant",
    "SMT.Mgp.C76_value_derivative",
    "SMT.Mgp.C76_mse",
    "SMT.Mgp.C76_variance_derivative"
   ],
   "note": "Variance sensitivities: proved for one-column trends (constant), the only case in which the code's triangular solve is the intended one (C41). Findings: dy lacks the factor y_std."
  },
  {
   "property": "C77",
   "status": "proved",
   "theorems": [
    "SMT.Mgp.C77_objective_invariant",
    "SMT.Mgp.C77_prediction_invariant",
    "SMT.Mgp.C77_singular",
    "SMT.Mgp.C77_predict_variances_raises"
   ],
   "note": "Proved for all data. Non-vacuity: an explicit data set and prior with a stationary theta and two components."
  },
  {
   "property": "C62",
   "status": "proved",
   "theorems": [
    "SMT.CStep.C62_water_values",
    "SMT.CStep.C62_water",
    "SMT.CStep.C62_water_box",
    "SMT.CStep.C62_welded",
    "SMT.CStep.C62_welded_box",
    "SMT.CStep.C62_wing",
    "SMT.CStep.C62_wing_box",
    "SMT.CStep.C62_torsion_value",
    "SMT.CStep.C62_torsion",
    "SMT.CStep.C62_torsion_box",
    "SMT.CStep.C62_limit",
    "SMT.CStep.C62_domains",
    "SMT.CStep.C62_second_order"
   ],
   "note": "Formulas are modelled as expression trees with a real and a complex (principal branch) evaluation; C62_second_order is proved for every expression on its natural domain by analyticity along coordinate lines, then the domain is shown to contain the design boxes. Exact arithmetic; step is a parameter (code: 1e-20 and 1e-6)."
  },
  {
   "property": "C78",
   "status": "proved",
   "theorems": [
    "SMT.Ge.C78_result",
    "SMT.Ge.C78_sign",
    "SMT.Ge.C78_raises",
    "SMT.Ge.C78_affine",
    "SMT.Ge.C78_taylor_error",
    "SMT.Ge.C78_outside",
    "SMT.Ge.C78_prepare",
    "SMT.Ge.C78_train_twice",
    "SMT.Ge.C78_slopes",
    "SMT.Ge.C78_derivative",
    "SMT.Ge.C78_trains"
   ],
   "note": "PLS regression, Box-Behnken design and the tie order of argsort are parameters; the trained statements use the Kriging model (C39, C42, C73) with the PLS kernel built from the returned coefficients, exact factorisations."
  },
  {
   "property": "C79",
   "status": "proved",
   "theorems": [
    "SMT.Misc.C79_given",
    "SMT.Misc.C79_zero_values",
    "SMT.Misc.C79_training",
    "SMT.Misc.C79_units",
    "SMT.Misc.C79_training_derivatives",
    "SMT.Misc.C79_one_missing"
   ],
   "note": "NumPy division by zero is modelled by separate outcomes nan/inf."
  },
  {
   "property": "C80",
   "status": "proved",
   "theorems": [
    "SMT.Het.C80_noise",
    "SMT.Het.C80_distinct",
    "SMT.Het.C80_trains",
    "SMT.Het.C80_prediction",
    "SMT.Het.C80_interpolates",
    "SMT.Het.C80_equivalent",
    "SMT.Het.C80_noise0"
   ],
   "note": "np.unique is a parameter (distinct rows, same set); exact arithmetic, given hyper-parameters; MFK: the same lines of one level, its later levels are not part of this model."
  },
  {
   "property": "C81",
   "status": "proved",
   "theorems": [
    "SMT.Krg.C81_prediction",
    "SMT.Krg.C81_variance",
    "SMT.Krg.C81_trains",
    "SMT.Krg.C81_likelihood",
    "SMT.Krg.C81_kernels",
    "SMT.Krg.C81_pls_kernels",
    "SMT.Krg.C81_trends",
    "SMT.Krg.C81_ordinary_kriging",
    "SMT.Krg.C81_constant_input"
   ],
   "note": "Same kernel parameters in both trainings; exact linear algebra. C81_ordinary_kriging is end to end for the kernels and the constant trend of the code; C81_trends/C81_kernels discharge the symmetry hypotheses for the other trends and for PLS kernels with the same coefficients."
  },
  {
   "property": "C82",
   "status": "proved",
   "theorems": [
    "SMT.Krg.C82_krg",
    "SMT.Krg.C82_ordinary_kriging",
    "SMT.Idw.C82_idw",
    "SMT.Fit.C82_qp",
    "SMT.Fit.C82_ls",
    "SMT.Rbf.C82_rbf"
   ],
   "note": "Exact linear solves; scikit-learn's LinearRegression is trusted to return a least-squares affine function (LsOk, satisfiable by ls_exists), np.linalg.inv to return exact inverses."
  },
  {
   "property": "C83",
   "status": "proved",
   "theorems": [
    "SMT.Idw.C83_idw",
    "SMT.Fit.C83_qp",
    "SMT.Fit.C83_ls",
    "SMT.Rbf.C83_rbf"
   ],
   "note": "The Kriging counterpart is C81."
  },
  {
   "property": "C84",
   "status": "proved",
   "theorems": [
    "SMT.Idw.C84_idw",
    "SMT.Fit.C84_qp_trains",
    "SMT.Fit.C84_qp_reproduces",
    "SMT.Fit.C84_ls",
    "SMT.Rbf.C84_rbf",
    "SMT.Rbf.C84_rbf_no_trend",
    "SMT.Krg.C84_trend_spaces",
    "SMT.Krg.C84_kriging_full_rank",
    "SMT.Krg.C84_kriging",
    "SMT.Krg.C84_kriging_poly"
   ],
   "note": "quadratics_iff shows that the columns of the code span exactly the polynomials of degree at most two."
  },
  {
   "property": "C85",
   "status": "proved",
   "theorems": [
    "SMT.Silence.C85_flat",
    "SMT.Silence.C85_nested",
    "SMT.Silence.C85_redirection_lost",
    "SMT.Silence.C85_silence2"
   ],
   "note": "Single-threaded interpreter; file descriptors of Silence2 reduced to what standard output is connected to; Python 3's lazy map is part of the model."
  },
  {
   "property": "C86",
   "status": "proved",
   "theorems": [
    "SMT.Tables.C86_documented_names",
    "SMT.Tables.C86_documented_rows",
    "SMT.Tables.C86_undocumented_values",
    "SMT.Tables.C86_construct_iff",
    "SMT.Tables.C86_construct_iff_alone",
    "SMT.Tables.C86_construct_read",
    "SMT.Tables.C86_defaults",
    "SMT.Tables.C86_unknown",
    "SMT.Tables.C86_kriging_poly",
    "SMT.Tables.C86_kriging_corr",
    "SMT.Tables.C86_late_failure",
    "SMT.Tables.C86_kplsk_type_error",
    "SMT.Tables.C86_enforced",
    "SMT.Tables.C86_print_switches",
    "SMT.Tables.C86_noise_switches",
    "SMT.Tables.C86_counts",
    "SMT.Tables.C86_reals",
    "SMT.Tables.C86_nugget",
    "SMT.Tables.C86_poly_degree",
    "SMT.Tables.C86_ego_objects",
    "SMT.Tables.C86_line_search",
    "SMT.Tables.C86_line_search_class",
    "SMT.Tables.C86_none_trap",
    "SMT.Tables.C86_rebuild",
    "SMT.Tables.C86_advertised",
    "SMT.Tables.C86_problem_dim"
   ],
   "note": "Tables transcribed from the source by a script; float literals exact; container contents abstracted; comparison of an array with a member of a values list raises."
  },
  {
   "property": "C87",
   "status": "proved",
   "theorems": [
    "SMT.Rmts.C87_searches_take_full_step",
    "SMT.Rmts.C87_order2_trained",
    "SMT.Rmts.C87_order2_unique_minimiser",
    "SMT.Rmts.C87_order2_superposition",
    "SMT.Rmts.C87_outputs_independent",
    "SMT.Rmts.C87_point_order",
    "SMT.Rmts.C87_order2_output_derivatives",
    "SMT.Rmts.C87_other_outputs_unchanged",
    "SMT.Rmts.C87_stale_matrix",
    "SMT.Rmts.C87_derivative_of_other_output",
    "SMT.Rmts.C87_interrupted_startup",
    "SMT.Rmts.C87_options_restored"
   ],
   "note": "Exact arithmetic, exact linear solver (any function solving positive definite systems). Order 2 in full; for higher orders independence, point order and the findings. Caching off."
  },
  {
   "property": "C88",
   "status": "proved",
   "theorems": [
    "SMT.Rmts.C88_training_converges",
    "SMT.Rmts.C88_stationary_is_optimal",
    "SMT.Rmts.C88_small_gradient_near_optimum",
    "SMT.Rmts.C88_one_optimum",
    "SMT.Rmts.C88_optimum_derivative"
   ],
   "note": "Exact real arithmetic and exact linear solver. Convergence for the backtracking search only (the bracketed and cubic searches are covered by C87 for order 2). The model bounds the backtracking loop by a fuel; the theorem shows that a fixed finite fuel suffices, so the loop of the code ends. Caching off."
  },
  {
   "property": "C89",
   "status": "proved",
   "theorems": [
    "SMT.Moe.Train.C89_every_sample_used",
    "SMT.Moe.Train.C89_test_data_costs_a_tenth",
    "SMT.Moe.Train.C89_several_outputs_need_test_data",
    "SMT.Moe.Train.C89_best_class_per_cluster",
    "SMT.Moe.Train.C89_admissible_classes",
    "SMT.Moe.Train.C89_spline_experts_cover_all_data",
    "SMT.Moe.Train.C89_succeeds_iff",
    "SMT.Moe.Train.C89_retraining_is_fresh",
    "SMT.Moe.Train.C89_set_training_values_wins",
    "SMT.Moe.Train.C89_failed_clustering_predicts_zero",
    "SMT.Moe.Train.C89_refused_data_keeps_the_model",
    "SMT.Moe.Train.C89_one_axis_inputs_refused",
    "SMT.Moe.Train.C89_wrapper_last_group_wins",
    "SMT.Moe.Train.C89_wrapper_is_moe",
    "SMT.Moe.Train.C89_wrapper_options_read_once",
    "SMT.Moe.Train.C89_wrapper_several_outputs",
    "SMT.Moe.Train.C89_prediction"
   ],
   "note": "scikit-learn's mixture, SciPy's densities and the experts are parameters (arbitrary). Exact arithmetic. predict_variances after training is covered by C48 only."
  },
  {
   "property": "C90",
   "status": "proved",
   "theorems": [
    "SMT.Nn.Life.C90_conversion",
    "SMT.Nn.Life.C90_needs_every_derivative",
    "SMT.Nn.Life.C90_values_only",
    "SMT.Nn.Life.C90_points_not_compared",
    "SMT.Nn.Life.C90_load_single_output",
    "SMT.Nn.Life.C90_load_several_outputs",
    "SMT.Nn.Life.C90_load_not_atomic",
    "SMT.Nn.Life.C90_goodness_replaces_data",
    "SMT.Nn.Life.C90_goodness_untrained",
    "SMT.Nn.Life.C90_terminates",
    "SMT.Nn.Life.C90_batch",
    "SMT.Nn.Life.C90_succeeds_iff",
    "SMT.Nn.Life.C90_state_after_training",
    "SMT.Nn.Life.C90_history",
    "SMT.Nn.Life.C90_untrained_success",
    "SMT.Nn.Life.C90_seed_same_batches",
    "SMT.Nn.Life.C90_seed_not_initial",
    "SMT.Nn.Life.C90_seed_repeatable",
    "SMT.Nn.Life.C90_units",
    "SMT.Nn.Life.C90_predict",
    "SMT.Nn.Life.C90_predict_stale",
    "SMT.Nn.Life.C90_goodness_keeps_predictions",
    "SMT.Nn.Life.C90_goodness_outcome",
    "SMT.Nn.Life.C90_derivative_after_training",
    "SMT.Nn.Life.C90_load_values_only",
    "SMT.Nn.Life.C90_goodness_dimensions",
    "SMT.Nn.Life.C90_training_data",
    "SMT.Nn.Life.C90_gradient"
   ],
   "note": "Reals, exact arithmetic; NumPy's generator is an arbitrary transition function. Plotting and printing are not modelled. A constant column (division 0/0) is recorded as a flag `nan`, after which the numbers are not modelled."
  },
  {
   "property": "C91",
   "status": "proved",
   "theorems": [
    "SMT.Krg.Multi.C91_columns",
    "SMT.Krg.Multi.C91_objective",
    "SMT.Krg.Multi.C91_bounds",
    "SMT.Krg.Multi.C91_common_optimum",
    "SMT.Krg.Multi.C91_copies",
    "SMT.Krg.Multi.C91_order",
    "SMT.Krg.Multi.C91_units",
    "SMT.Krg.Multi.C91_constant_output",
    "SMT.Krg.Multi.C91_all_constant",
    "SMT.Krg.Multi.C91_gradient",
    "SMT.Krg.Multi.C91_tnc",
    "SMT.Krg.Multi.C91_tnc_twice",
    "SMT.Krg.Multi.C91_het_predict",
    "SMT.Krg.Multi.C91_het_target"
   ],
   "note": "Exact reals; Cholesky and QR as parameters; scipy's TNC is modelled up to its first gradient evaluation. The multi-fidelity models and KPLS's PLS step with several outputs are not covered."
  },
  {
   "property": "C92",
   "status": "proved",
   "theorems": [
    "SMT.Ego.Life.C92_refines",
    "SMT.Ego.Life.C92_setup",
    "SMT.Ego.Life.C92_n_iter_required",
    "SMT.Ego.Life.C92_history",
    "SMT.Ego.Life.C92_evaluation_budget",
    "SMT.Ego.Life.C92_proposal",
    "SMT.Ego.Life.C92_seeded_retries",
    "SMT.Ego.Life.C92_seeded_starts_are_design",
    "SMT.Ego.Life.C92_unknown_criterion_new",
    "SMT.Ego.Life.C92_unknown_criterion_used",
    "SMT.Ego.Life.C92_criterion_kept",
    "SMT.Ego.Life.C92_unknown_qei",
    "SMT.Ego.Life.C92_bounds",
    "SMT.Ego.Life.C92_user_array",
    "SMT.Ego.Life.C92_sequential_ignores_qei",
    "SMT.Ego.Life.C92_reproducible",
    "SMT.Ego.Life.C92_repeat",
    "SMT.Ego.Life.C92_more_iterations",
    "SMT.Ego.Life.C92_criterion_is_expected_improvement",
    "SMT.Ego.Life.C92_tunneling_criterion",
    "SMT.Ego.Life.C92_ei_batch",
    "SMT.Ego.Life.C92_virtual_values",
    "SMT.Ego.Life.C92_bad_design",
    "SMT.Ego.Life.C92_empty_design",
    "SMT.Ego.Life.C92_no_attempt",
    "SMT.Ego.Life.C92_unseeded_retries",
    "SMT.Ego.Life.C92_generators"
   ],
   "note": "The surrogate, SLSQP (deterministic, may fail or raise ValueError) and the Latin-hypercube generator are parameters; exact arithmetic; one output; natural-number options. C19-C21 apply to the same runs through C92_refines."
  },
  {
   "property": "C93",
   "status": "proved",
   "theorems": [
    "SMT.MixedInt.Wrap.C93_transparent",
    "SMT.MixedInt.Wrap.C93_named_update",
    "SMT.MixedInt.Wrap.C93_named_sets",
    "SMT.MixedInt.Wrap.C93_update_after_named",
    "SMT.MixedInt.Wrap.C93_named_only_train",
    "SMT.MixedInt.Wrap.C93_wrap_trained",
    "SMT.MixedInt.Wrap.C93_no_derivatives",
    "SMT.MixedInt.Wrap.C93_extra_columns",
    "SMT.MixedInt.Wrap.C93_wrong_columns",
    "SMT.MixedInt.Wrap.C93_design",
    "SMT.MixedInt.Wrap.C93_interpolates",
    "SMT.MixedInt.Wrap.C93_modes_agree",
    "SMT.MixedInt.Wrap.C93_modes_iff"
   ],
   "note": "The wrapped surrogate is a parameter (any learn, value and variance functions of its training data and fitted state); exact arithmetic. Derivative index -1 (which would overwrite the values) is excluded in C93_transparent and C93_named_update."
  },
  {
   "property": "C94",
   "status": "proved",
   "theorems": [
    "SMT.Problems.C94_returns",
    "SMT.Problems.C94_call",
    "SMT.Problems.C94_refused",
    "SMT.Problems.C94_shapes",
    "SMT.Problems.C94_index",
    "SMT.Problems.C94_in_range",
    "SMT.Problems.C94_sphere",
    "SMT.Problems.C94_rosenbrock",
    "SMT.Problems.C94_branin",
    "SMT.Problems.C94_tensor_product",
    "SMT.Problems.C94_cantilever",
    "SMT.Problems.C94_robot_arm",
    "SMT.Problems.C94_lp_norm",
    "SMT.Problems.C94_complex_step",
    "SMT.Problems.C94_out_of_range",
    "SMT.Problems.C94_out_of_range_silent",
    "SMT.Problems.C94_reduced_accepted",
    "SMT.Problems.C94_reduced_value",
    "SMT.Problems.C94_reduced_nonneg",
    "SMT.Problems.C94_negative_right",
    "SMT.Problems.C94_negative_branin",
    "SMT.Problems.C94_negative_tensor",
    "SMT.Problems.C94_negative_rosenbrock",
    "SMT.Problems.C94_negative_cantilever",
    "SMT.Problems.C94_negative_robot_arm",
    "SMT.Problems.C94_negative_robot_arm_length",
    "SMT.Problems.C94_negative_cantilever_section",
    "SMT.Problems.C94_exact",
    "SMT.Problems.C94_exact_everywhere",
    "SMT.Problems.C94_no_rows",
    "SMT.Problems.C94_limits"
   ],
   "note": "Real inputs, exact arithmetic; return_complex (a change of data type) not modelled. Divisions by zero (a beam of zero width, a robot arm at the origin) give nan in NumPy and 0 in the model; the exactness theorems exclude them."
  },
  {
   "property": "C95",
   "status": "proved",
   "theorems": [
    "SMT.Printing.C95_silent",
    "SMT.Printing.C95_print_solver_ignored",
    "SMT.Printing.C95_raises",
    "SMT.Printing.C95_depth",
    "SMT.Printing.C95_gone_silent",
    "SMT.Printing.C95_output_derivatives_stale",
    "SMT.Printing.C95_train_header",
    "SMT.Printing.C95_prediction_lines",
    "SMT.Printing.C95_rbf_transcript",
    "SMT.Printing.C95_rbf_goes_silent",
    "SMT.Printing.C95_times",
    "SMT.Printing.C95_callback"
   ],
   "note": "Standard output is a list of lines, number formatting a parameter. The concrete transcript is proved for RBF without data_dir; the other theorems hold for any program of printer operations."
  },
  {
   "property": "C96",
   "status": "proved",
   "theorems": [
    "SMT.Mfk.C96_discrepancy",
    "SMT.Mfk.C96_affine",
    "SMT.Mfk.C96_affine_variance",
    "SMT.Mfk.C96_one_level",
    "SMT.Mfk.C96_units"
   ],
   "note": "For given hyper-parameters; kernels and trends are any that are symmetric under reversal of an input, which C81_kernels and C81_trends show for those of the package. Exact linear algebra (LinOk, LinComplete)."
  },
  {
   "property": "C97",
   "status": "proved",
   "theorems": [
    "SMT.Nn.FD.C97_central_differences",
    "SMT.Nn.FD.C97_callers_arrays",
    "SMT.Nn.FD.C97_history",
    "SMT.Nn.FD.C97_exact_quadratic",
    "SMT.Nn.FD.C97_accuracy",
    "SMT.Nn.FD.C97_limit",
    "SMT.Nn.FD.C97_grad_check",
    "SMT.Nn.FD.C97_grad_check_no_gradient",
    "SMT.Nn.FD.C97_zero_gradient"
   ],
   "note": "Arrays live in a heap. The line search is any function of the values of the design and its gradient (the concrete ones are in C68); hypothesis: the arrays under different keys are different arrays."
  },
  {
   "property": "C98",
   "status": "proved",
   "theorems": [
    "SMT.Native.Idw.C98_idw_kernel",
    "SMT.Native.Idw.C98_idw_derivative_kernel",
    "SMT.Native.Idw.C98_idw_train",
    "SMT.Native.Idw.C98_idw_history",
    "SMT.Native.Idw.C98_idw_stale",
    "SMT.Native.Idw.C98_idw_failed_training",
    "SMT.Native.Idw.C98_idw_refused",
    "SMT.Native.Rbf.C98_rbf_kernel",
    "SMT.Native.Rbf.C98_rbf_derivative_kernel",
    "SMT.Native.Rbf.C98_rbf_train",
    "SMT.Native.Rbf.C98_rbf_use",
    "SMT.Native.Rbf.C98_rbf_untrained",
    "SMT.Native.Rbf.C98_rbf_stale",
    "SMT.Native.Rbf.C98_rbf_retrain",
    "SMT.Native.Rbf.C98_rbf_failed_training"
   ],
   "note": "Memory is modelled as separate buffers with unwritten cells and 32-bit int arithmetic; numbers are exact. Which exception the generated Cython code raises is taken from its documented conversions."
  },
  {
   "property": "C99",
   "status": "proved",
   "theorems": [
    "SMT.Native.Rmt.C99_expand_index",
    "SMT.Native.Rmt.C99_contract_index",
    "SMT.Native.Rmt.C99_rmts_setup",
    "SMT.Native.Rmt.C99_rmts_setup_outside",
    "SMT.Native.Rmt.C99_ext_dist",
    "SMT.Native.Rmt.C99_quadrature",
    "SMT.Native.Rmtb.C99_basis0",
    "SMT.Native.Rmtb.C99_basis1",
    "SMT.Native.Rmtb.C99_basis2",
    "SMT.Native.Rmtb.C99_rmtb_kernel",
    "SMT.Native.Rmtb.C99_no_span",
    "SMT.Native.Rmtb.C99_rmtb_train",
    "SMT.Native.Rmtb.C99_rmtb_train_short",
    "SMT.Native.Rmtb.C99_rmtb_retrain",
    "SMT.Native.Rmtb.C99_rmtb_numpy_integer",
    "SMT.Native.Rmtb.C99_rmtb_jac_raw",
    "SMT.Native.Rmtb.C99_rmtb_predict",
    "SMT.Native.Rmtb.C99_rmtb_values",
    "SMT.Native.Rmtb.C99_rmtb_derivs",
    "SMT.Native.Rmtb.C99_rmtb_derivs_safe",
    "SMT.Native.Rmtb.C99_rmtb_derivs_minus_one",
    "SMT.Native.Rmtb.C99_rmtb_derivs_negative",
    "SMT.Native.Rmtb.C99_rmtb_untrained",
    "SMT.Native.Rmtb.C99_rmtb_failed_training",
    "SMT.Native.Rmtb.C99_rmtb_derivs_too_large",
    "SMT.Native.Rmtb.C99_rmtb_limits_replaced",
    "SMT.Native.Rmtb.C99_rmtb_longer_list",
    "SMT.Native.Rmtb.C99_rmtb_stale",
    "SMT.Native.Rmtb.C99_rmtb_ext",
    "SMT.Native.Rmtb.C99_rmtb_quadrature"
   ],
   "note": "Memory as in C98. NaN is not modelled (equal limits make the parameters NaN in floating point; C99_no_span states what the basis routine then does). The state after a successful training is described by Trained, which C99_rmtb_train establishes."
  },
  {
   "property": "C100",
   "status": "proved",
   "theorems": [
    "SMT.Native.Rmtc.C100_setup",
    "SMT.Native.Rmtc.C100_coeff2nodal",
    "SMT.Native.Rmtc.C100_coeff2nodal_overflow",
    "SMT.Native.Rmtc.C100_full_from_block",
    "SMT.Native.Rmtc.C100_uniq2elem",
    "SMT.Native.Rmtc.C100_find_interval_overflow",
    "SMT.Native.Rmtc.C100_rmtc_kernel",
    "SMT.Native.Rmtc.C100_rmtc_far",
    "SMT.Native.Rmtc.C100_rmtc_train",
    "SMT.Native.Rmtc.C100_rmtc_train_short",
    "SMT.Native.Rmtc.C100_rmtc_retrain",
    "SMT.Native.Rmtc.C100_rmtc_numpy_integer",
    "SMT.Native.Rmtc.C100_rmtc_jac_raw",
    "SMT.Native.Rmtc.C100_rmtc_values",
    "SMT.Native.Rmtc.C100_rmtc_derivs",
    "SMT.Native.Rmtc.C100_rmtc_derivs_no_input",
    "SMT.Native.Rmtc.C100_rmtc_values_far",
    "SMT.Native.Rmtc.C100_rmtc_values_flat",
    "SMT.Native.Rmtc.C100_rmtc_stale_fewer",
    "SMT.Native.Rmtc.C100_rmtc_stale_more",
    "SMT.Native.Rmtc.C100_rmtc_refused",
    "SMT.Native.Rmtc.C100_rmtc_eight_inputs",
    "SMT.Native.Rmtc.C100_rmtc_dof2coeff",
    "SMT.Native.Rmtc.C100_rmtc_longer_list"
   ],
   "note": "Memory as in C98. Infinities and NaN are modelled only where a zero-length interval is divided by and the result converted to int. The state after a successful training is described by Trained, which C100_rmtc_train establishes. np.linalg.inv is a parameter. Extrapolation distances and quadrature points are the routines of C99 (class RMTS)."
  },
  {
   "property": "C101",
   "status": "proved",
   "theorems": [
    "SMT.Fp.C101_exact",
    "SMT.Fp.C101_monotone",
    "SMT.Fp.C101_lower_end",
    "SMT.Fp.C101_not_below",
    "SMT.Fp.C101_upper_end",
    "SMT.Fp.C101_exact_width",
    "SMT.Fp.C101_integer_limits",
    "SMT.Fp.C101_below_one",
    "SMT.Fp.C101_half_open",
    "SMT.Fp.C101_error",
    "SMT.Fp.C101_levels",
    "SMT.Fp.C101_level_error",
    "SMT.Fp.C101_design",
    "SMT.Fp.C101_check_iff",
    "SMT.Fp.C101_grid_accepted_iff",
    "SMT.Fp.C101_overshoot",
    "SMT.Fp.C101_single_input",
    "SMT.Fp.C101_full_factorial_refused",
    "SMT.Fp.C101_undershoot",
    "SMT.Fp.C101_collapse",
    "SMT.Fp.C101_levels_apart",
    "SMT.Fp.C101_distinct",
    "SMT.Fp.C101_ext_dist",
    "SMT.Fp.C101_cell",
    "SMT.Fp.C101_cell_valid",
    "SMT.Fp.C101_cell_position",
    "SMT.Fp.C101_quadrature"
   ],
   "note": "Rounded arithmetic: Rounding is a structure of laws, shown to be met by rounding to nearest-even with p bits and by exact arithmetic. No overflow, underflow, infinities or NaN (the exponent is unbounded); np.sum in list order; no fused multiply-add."
  },
  {
   "property": "C102",
   "status": "proved",
   "theorems": [
    "SMT.Fp.C102_span_search",
    "SMT.Fp.C102_knots",
    "SMT.Fp.C102_basis",
    "SMT.Fp.C102_partition",
    "SMT.Fp.C102_parameter",
    "SMT.Fp.C102_row",
    "SMT.Fp.C102_prediction",
    "SMT.Fp.C102_between",
    "SMT.Fp.C102_eps_double",
    "SMT.Fp.C102_double_cubic"
   ],
   "note": "Backward-error form: compared with the exact spline on the computed knots at the computed parameter. Values only (no derivatives, where cancellation occurs); inside the limits or without extrapolation; no overflow or underflow, no fused multiply-add; SciPy's product adds column by column."
  },
  {
   "property": "C103",
   "status": "proved",
   "theorems": [
    "SMT.Fp.C103_comm",
    "SMT.Fp.C103_division",
    "SMT.Fp.C103_distance",
    "SMT.Fp.C103_same",
    "SMT.Fp.C103_unit_row",
    "SMT.Fp.C103_exact",
    "SMT.Fp.C103_overflow",
    "SMT.Fp.C103_underflow",
    "SMT.Fp.C103_sum_overflow",
    "SMT.Fp.C103_row",
    "SMT.Fp.C103_prediction",
    "SMT.Fp.C103_nan_iff",
    "SMT.Fp.C103_weights",
    "SMT.Fp.C103_double_nan",
    "SMT.Fp.C103_double_near_nan",
    "SMT.Fp.C103_double_zero",
    "SMT.Fp.C103_double_near"
   ],
   "note": "pow(d, 2.) is modelled as the rounded d*d and pow(r2, -p/2.) as an arbitrary function with non-negative results (correctly rounded in the double-precision examples); signs of zeros are not tracked; the product with yt is summed left to right, one output; no fused multiply-add."
  },
  {
   "property": "C104",
   "status": "proved",
   "theorems": [
    "SMT.Fp.C104_mean",
    "SMT.Fp.C104_detected",
    "SMT.Fp.C104_scale_pos",
    "SMT.Fp.C104_scale",
    "SMT.Fp.C104_monotone",
    "SMT.Fp.C104_distinct",
    "SMT.Fp.C104_bounded",
    "SMT.Fp.C104_roundtrip",
    "SMT.Fp.C104_constant_exact",
    "SMT.Fp.C104_constant",
    "SMT.Fp.C104_double_constant",
    "SMT.Fp.C104_double_collapse",
    "SMT.Fp.C104_overflow",
    "SMT.Fp.C104_underflow",
    "SMT.Fp.C104_double_range"
   ],
   "note": "One column at a time (columns are independent). np.sqrt is any function whose square is the argument up to two roundings. scale_X_to_unit=True (unused in the repository) and fewer than two values (NumPy gives NaN) are not modelled."
  },
  {
   "property": "C105",
   "status": "proved",
   "theorems": [
    "SMT.Nn.Persist.C105_load",
    "SMT.Nn.Persist.C105_dims",
    "SMT.Nn.Persist.C105_evaluate",
    "SMT.Nn.Persist.C105_fresh",
    "SMT.Nn.Persist.C105_same",
    "SMT.Nn.Persist.C105_value",
    "SMT.Nn.Persist.C105_copy",
    "SMT.Nn.Persist.C105_failed",
    "SMT.Nn.Persist.C105_no_first",
    "SMT.Nn.Persist.C105_transfer",
    "SMT.Nn.Persist.C105_csv",
    "SMT.Nn.Persist.C105_csv_first",
    "SMT.Nn.Persist.C105_csv_thin",
    "SMT.Nn.Persist.C105_csv_missing",
    "SMT.Nn.Persist.C105_csv_many"
   ],
   "note": "One example (column) at a time. Biases with as many rows as the weights (NumPy would also broadcast a single row). The parsing of the file by np.genfromtxt is not modelled, only what it returns (one axis for a single row or column)."
  },
  {
   "property": "C106",
   "status": "proved",
   "theorems": [
    "SMT.Fp.Ese.C106_columns",
    "SMT.Fp.Ese.C106_nan_blocks",
    "SMT.Fp.Ese.C106_zero_final",
    "SMT.Fp.Ese.C106_exchange",
    "SMT.Fp.Ese.C106_initial",
    "SMT.Fp.Ese.C106_bound",
    "SMT.Fp.Ese.C106_result",
    "SMT.Fp.Ese.C106_spec",
    "SMT.Fp.Ese.C106_good",
    "SMT.Fp.Ese.C106_returns",
    "SMT.Fp.Ese.C106_double_collapse",
    "SMT.Fp.Ese.C106_doubles",
    "SMT.Fp.Ese.C106_double_run",
    "SMT.Fp.Ese.C106_choice",
    "SMT.Fp.Ese.C106_coincident",
    "SMT.Fp.Ese.C106_lost",
    "SMT.Fp.Ese.C106_coincident_exchange",
    "SMT.Fp.Ese.C106_not_lost",
    "SMT.Fp.Ese.C106_nan_cause",
    "SMT.Fp.Ese.C106_accurate"
   ],
   "note": "Exponent range unbounded (no overflow or underflow of the powers). p even (the library uses 10). The functions of NumPy and libm are any functions within e roundings of the exact ones; the double-precision run assumes exactness on four powers of two (e.g. sqrt(2^-14) = 2^-7) and sums from the left."
  },
  {
   "property": "C107",
   "status": "proved",
   "theorems": [
    "SMT.Fp.C107_backtrack_iff",
    "SMT.Fp.C107_nan_hangs",
    "SMT.Fp.C107_direction_hangs",
    "SMT.Fp.C107_steep_hangs",
    "SMT.Fp.C107_never_increases",
    "SMT.Fp.C107_returns",
    "SMT.Fp.C107_slow_hangs",
    "SMT.Fp.C107_double_returns_iff",
    "SMT.Fp.C107_bracketed_sound",
    "SMT.Fp.C107_zoom_stuck_high",
    "SMT.Fp.C107_zoom_stuck_low",
    "SMT.Fp.C107_zoom_cycle",
    "SMT.Fp.C107_newton_nan",
    "SMT.Fp.C107_train_all_nan",
    "SMT.Fp.C107_train_one_nan",
    "SMT.Fp.C107_newton_hangs",
    "SMT.Fp.C107_no_bracket_nan",
    "SMT.Fp.C107_newton_returns",
    "SMT.Fp.C107_bracketed_hangs",
    "SMT.Fp.C107_factor",
    "SMT.Fp.C107_null",
    "SMT.Fp.C107_none_iff",
    "SMT.Fp.C107_infinite_slope"
   ],
   "note": "Objective, gradient, norm, dot product and solver are arbitrary functions on floats (deterministic). Signs of zeros are not distinguished. That NumPy stores NaN when None is assigned to a float column is part of the model."
  },
  {
   "property": "C108",
   "status": "proved",
   "theorems": [
    "SMT.Fp.C108_rounded_weights",
    "SMT.Fp.C108_refined",
    "SMT.Fp.C108_rounded_balanced",
    "SMT.Sampling.C108_quota",
    "SMT.Sampling.C108_balanced",
    "SMT.Sampling.C108_minimal"
   ],
   "note": "Exact arithmetic for the quota and minimality; rounding model with unbounded exponent range for the rest."
  },
  {
   "property": "C109",
   "status": "proved",
   "theorems": [
    "SMT.MfkData.C109_levels_unique",
    "SMT.MfkData.C109_trained",
    "SMT.MfkData.C109_no_high_fidelity",
    "SMT.MfkData.C109_rejected_update",
    "SMT.MfkData.C109_unusable",
    "SMT.MfkData.C109_outputs",
    "SMT.MfkData.C109_second_level_columns",
    "SMT.MfkData.C109_other_names",
    "SMT.MfkData.C109_other_names_train",
    "SMT.MfkData.C109_optim_var",
    "SMT.MfkData.C109_gap",
    "SMT.MfkData.C109_dimensions"
   ],
   "note": "The checks of the options and the fit are parameters (their models are those of C72 and C69-C71); arrays with two axes. Attributes left by a fit that fails half-way are not modelled."
  },
  {
   "property": "C110",
   "status": "proved",
   "theorems": [
    "SMT.Fp.Ego.C110_variance",
    "SMT.Fp.Ego.C110_ei_nan_iff",
    "SMT.Fp.Ego.C110_ei_finite",
    "SMT.Fp.Ego.C110_ei_array",
    "SMT.Fp.Ego.C110_tunneling",
    "SMT.Fp.Ego.C110_tunneling_special",
    "SMT.Fp.Ego.C110_ucb_nan_iff",
    "SMT.Fp.Ego.C110_argmin",
    "SMT.Fp.Ego.C110_min",
    "SMT.Fp.Ego.C110_next_point",
    "SMT.Fp.Ego.C110_result",
    "SMT.Fp.Ego.C110_nan_raises",
    "SMT.Fp.Ego.C110_nan_only_last",
    "SMT.Fp.Ego.C110_training_raises"
   ],
   "note": "norm.cdf, norm.pdf and np.sqrt are parameters with a contract on ranges and special values (no accuracy assumed); signs of zeros are not kept. That solve_triangular raises on NaN (check_finite) is SciPy's documented behaviour and enters as the hypothesis RaisesOnNan, justified by C110_training_raises."
  },
  {
   "property": "C111",
   "status": "proved",
   "theorems": [
    "SMT.MixedInt.C111_int_counts",
    "SMT.MixedInt.C111_int_covered",
    "SMT.MixedInt.C111_center_covered",
    "SMT.MixedInt.C111_center_once",
    "SMT.MixedInt.C111_center_ties",
    "SMT.MixedInt.C111_int_missed",
    "SMT.MixedInt.C111_enum_any"
   ],
   "note": "Exact arithmetic. The Latin hypercube property of the wrapped method is a hypothesis on its unit design (pyDOE produces it; the ESE optimisation of lhs.py preserves it, C13)."
  },
  {
   "property": "C112",
   "status": "proved",
   "theorems": [
    "SMT.Krg.C112_outcome",
    "SMT.Krg.C112_same_model",
    "SMT.Krg.C112_constant",
    "SMT.Krg.C112_identifiable",
    "SMT.Krg.C112_degenerate",
    "SMT.Krg.C112_linear_hyperplane",
    "SMT.Krg.C112_quadratic_two_levels",
    "SMT.Krg.C112_accepts",
    "SMT.Krg.C112_linear_one_input",
    "SMT.Krg.C112_values",
    "SMT.Krg.C112_degenerate_training",
    "SMT.Krg.C112_trend_data_fails"
   ],
   "note": "Exact real arithmetic; scipy's cholesky, qr and svd are parameters with contracts (shown satisfiable for all sizes). One output."
  },
  {
   "property": "C113",
   "status": "proved",
   "theorems": [
    "SMT.Rmts.C113_direct_solvers",
    "SMT.Rmts.C113_other_directions",
    "SMT.Rmts.C113_exact_names",
    "SMT.Rmts.C113_exact_names_converge",
    "SMT.Rmts.C113_dense_chol_steepest_descent",
    "SMT.Rmts.C113_dense_lu_raises",
    "SMT.Rmts.C113_null_gives_zero",
    "SMT.Solvers.C113_conjugate_gradients",
    "SMT.Rmts.C113_krylov_direction",
    "SMT.Rmts.C113_krylov_order2",
    "SMT.Rmts.C113_gs_direction",
    "SMT.Rmts.C113_backtracking_ascent",
    "SMT.Rmts.C113_newton_never_increases",
    "SMT.Rmts.C113_training_never_worse",
    "SMT.Rmts.C113_jacobi_ascent",
    "SMT.Rmts.C113_dense_chol_wrong",
    "SMT.Rmts.C113_output_derivatives"
   ],
   "note": "Exact arithmetic; SciPy's cg is modelled as textbook preconditioned conjugate gradients with the legacy stopping rule, splu as an exact solve, cholesky and spilu are parameters. Several claims are violations of what the option promises, stated as such."
  },
  {
   "property": "C114",
   "status": "proved",
   "theorems": [
    "SMT.Fp.Moe.C114_product",
    "SMT.Fp.Moe.C114_total",
    "SMT.Fp.Moe.C114_single",
    "SMT.Fp.Moe.C114_special",
    "SMT.Fp.Moe.C114_probabilities",
    "SMT.Fp.Moe.C114_smooth_sum",
    "SMT.Fp.Moe.C114_smooth",
    "SMT.Fp.Moe.C114_hard",
    "SMT.Fp.Moe.C114_hard_regular",
    "SMT.Fp.Moe.C114_nan",
    "SMT.Fp.Moe.C114_lost",
    "SMT.Fp.Moe.C114_variance",
    "SMT.Fp.Moe.C114_unrounded",
    "SMT.Fp.Moe.C114_smooth_unrounded"
   ],
   "note": "IEEE arithmetic with overflow, underflow, infinities and NaN. The densities (SciPy's multivariate normal) and the experts' outputs are arbitrary values of the format; the order of np.sum is any tree. Prediction 0 after underflow, NaN from an expert of probability 0 and the hard choice of a smaller product are violations of what holds in exact arithmetic, stated as such."
  },
  {
   "property": "C115",
   "status": "proved",
   "theorems": [
    "SMT.Fp.MixedInt.C115_numbers",
    "SMT.Fp.MixedInt.C115_block",
    "SMT.Fp.MixedInt.C115_cast_blockwise",
    "SMT.Fp.MixedInt.C115_idempotent",
    "SMT.Fp.MixedInt.C115_level",
    "SMT.Fp.MixedInt.C115_fold_blockwise",
    "SMT.Fp.MixedInt.C115_unfold",
    "SMT.Fp.MixedInt.C115_labels",
    "SMT.Fp.MixedInt.C115_round_representable",
    "SMT.Fp.MixedInt.C115_prediction",
    "SMT.Fp.MixedInt.C115_unit_limits",
    "SMT.Fp.MixedInt.C115_mixed_row",
    "SMT.Fp.MixedInt.C115_enum_exact",
    "SMT.Fp.MixedInt.C115_int_level",
    "SMT.Fp.MixedInt.C115_double_limits"
   ],
   "note": "Special values for the row functions; for sampling, rounded arithmetic without overflow and limits whose difference is a number of the format (all integer limits up to 2^52 in double precision). C's conversion of NaN, infinities and large numbers to an integer is a parameter. All ones for a NaN block is a violation of one-hot coding, stated as such."
  },
  {
   "property": "C116",
   "status": "proved",
   "theorems": [
    "SMT.Fp.Corr.C116_symmetric",
    "SMT.Fp.Corr.C116_self",
    "SMT.Fp.Corr.C116_matrix",
    "SMT.Fp.Corr.C116_training_point",
    "SMT.Fp.Corr.C116_exp_range",
    "SMT.Fp.Corr.C116_finite_points",
    "SMT.Fp.Corr.C116_exp_nan",
    "SMT.Fp.Corr.C116_monotone",
    "SMT.Fp.Corr.C116_far_zero",
    "SMT.Fp.Corr.C116_far_trend",
    "SMT.Fp.Corr.C116_nan_spreads",
    "SMT.Fp.Corr.C116_variance_raises",
    "SMT.Fp.Corr.C116_matern",
    "SMT.Fp.Corr.C116_matern_number",
    "SMT.Fp.Corr.C116_matern_far_nan",
    "SMT.Fp.Corr.C116_matern_dimensions",
    "SMT.Fp.Corr.C116_exp_accuracy",
    "SMT.Fp.Corr.C116_bounds_exact",
    "SMT.Fp.Corr.C116_factor_accuracy",
    "SMT.Fp.Corr.C116_matern_accuracy",
    "SMT.Fp.Var.C116_far_variance",
    "SMT.Fp.Var.C116_far_variance_constant",
    "SMT.Fp.Var.C116_variance_bounded",
    "SMT.Fp.Var.C116_substitution",
    "SMT.Fp.Var.C116_variance"
   ],
   "note": "np.exp is a parameter with stated laws (exact at 0 and -inf, in [0, 1] below 0, zero below -746; monotone only where said). Fused multiply-add in np.dot and signs of zeros are not modelled. NaN from the Matern kernels is a violation, stated as such; in double precision it occurs in one dimension from scaled distances of 1.3e154 and in 136 dimensions from scaled distances of 10."
  },
  {
   "property": "C117",
   "status": "proved",
   "theorems": [
    "SMT.Fp.Rbf.C117_symmetric",
    "SMT.Fp.Rbf.C117_self",
    "SMT.Fp.Rbf.C117_zero_scaling",
    "SMT.Fp.Rbf.C117_range",
    "SMT.Fp.Rbf.C117_far",
    "SMT.Fp.Rbf.C117_matrix",
    "SMT.Fp.Rbf.C117_far_prediction",
    "SMT.Fp.Rbf.C117_polynomial_block",
    "SMT.Fp.Rbf.C117_far_polynomial",
    "SMT.Fp.Rbf.C117_derivative",
    "SMT.Fp.Rbf.C117_derivative_self",
    "SMT.Fp.Rbf.C117_far_derivative",
    "SMT.Fp.Rbf.C117_derivative_polynomial"
   ],
   "note": "exp is a parameter with stated laws (exact at 0 and -inf, in [0, 1] below 0, zero below a cut); pow(v, 2) is v * v; the linear solver is not modelled, the coefficients are arbitrary numbers."
  },
  {
   "property": "C118",
   "status": "proved",
   "theorems": [
    "SMT.Fp.Err.C118_norm",
    "SMT.Fp.Err.C118_nan",
    "SMT.Fp.Err.C118_exact",
    "SMT.Fp.Err.C118_hidden_errors",
    "SMT.Fp.Err.C118_zero_reference",
    "SMT.Fp.Err.C118_zero_iff",
    "SMT.Fp.Err.C118_overflow_example",
    "SMT.Fp.Err.C118_experts",
    "SMT.Fp.Err.C118_heaviside",
    "SMT.Fp.Err.C118_grad_check"
   ],
   "note": "sqrt is a parameter with the laws of IEEE 754 (a square root for binary64 satisfying them is constructed); fused multiply-add in x.dot(x) is not modelled. The scores and errors in the choices are arbitrary values: when NumPy's SVD raises on NaN instead of returning it, the choice is not reached."
  },
  {
   "property": "C119",
   "status": "proved",
   "theorems": [
    "SMT.Fp.Accur.C119_correlation",
    "SMT.Fp.Accur.C119_kriging",
    "SMT.Fp.Accur.C119_radial",
    "SMT.Fp.Accur.C119_rbf",
    "SMT.Fp.Accur.C119_kriging_double",
    "SMT.Fp.Poly.C119_ls_value",
    "SMT.Fp.Poly.C119_ls_derivative",
    "SMT.Fp.Poly.C119_qp_value",
    "SMT.Fp.Poly.C119_qp_derivative",
    "SMT.Fp.Poly.C119_qp_origin",
    "SMT.Fp.Poly.C119_qp_integers",
    "SMT.Fp.Poly.C119_double"
   ],
   "note": "Exponents are unbounded here (range: C116, C117). Kriging and RBF are relative to the coefficients as stored and, for Kriging, to the normalised inputs as computed; trend functions are constant or linear; act_exp is not covered; a scaling d0 of 0 (C117) divides by zero and is outside this model. exp is any function with a relative error of q roundings."
  },
  {
   "property": "C120",
   "status": "proved",
   "theorems": [
    "SMT.Fp.Optim.C120_history",
    "SMT.Fp.Optim.C120_undefined_step",
    "SMT.Fp.Optim.C120_nan_delays",
    "SMT.Fp.Optim.C120_absolute_never",
    "SMT.Fp.Optim.C120_overflow_small",
    "SMT.Fp.Optim.C120_overflow_start",
    "SMT.Fp.Optim.C120_pass",
    "SMT.Fp.Optim.C120_gd_pass",
    "SMT.Fp.Optim.C120_adam_pass",
    "SMT.Fp.Optim.C120_undefined_pass",
    "SMT.Fp.Optim.C120_ends_undefined",
    "SMT.Fp.Optim.C120_nan_stays",
    "SMT.Fp.Optim.C120_nan_runs_all",
    "SMT.Fp.Optim.C120_rate_not_finite",
    "SMT.Fp.Optim.C120_trials",
    "SMT.Fp.Optim.C120_terminates",
    "SMT.Fp.Optim.C120_default_undefined",
    "SMT.Fp.Optim.C120_adam_frozen"
   ],
   "note": "C68 is the exact-arithmetic counterpart. Cost, gradient, np.sqrt and ** are parameters; signs of zeros are not distinguished. The freezing theorem assumes gradients of at most 2^1000, a rate of at most 1024 and a power that returns a number between 0 and its base."
  },
  {
   "property": "C121",
   "status": "proved",
   "theorems": [
    "SMT.Fp.NetX.C121_tanh_nan",
    "SMT.Fp.NetX.C121_tanh_range",
    "SMT.Fp.NetX.C121_tanh_odd",
    "SMT.Fp.NetX.C121_tanh_one",
    "SMT.Fp.NetX.C121_tanh_derivative",
    "SMT.Fp.NetX.C121_saturated",
    "SMT.Fp.NetX.C121_sigmoid",
    "SMT.Fp.NetX.C121_sigmoid_monotone",
    "SMT.Fp.NetX.C121_sigmoid_second",
    "SMT.Fp.NetX.C121_overflow",
    "SMT.Fp.NetX.C121_constant_input",
    "SMT.Fp.NetX.C121_constant_output_gradient",
    "SMT.Fp.NetX.C121_off_stays",
    "SMT.Fp.NetX.C121_constant_output_prediction",
    "SMT.Fp.NetX.C121_constant_output",
    "SMT.Fp.NetX.C121_bounded",
    "SMT.Fp.NetX.C121_at_mean",
    "SMT.Fp.NetX.C121_jacobian_bounded"
   ],
   "note": "np.exp and the orders of summation are parameters; nothing is assumed of the accuracy of np.exp. Of the backward pass only the gradient with respect to the last biases is modelled in this arithmetic. That np.std of a constant column is exactly 0 is a hypothesis."
  },
  {
   "property": "C122",
   "status": "proved",
   "theorems": [
    "SMT.Fp.NetX.C122_gradient_nan",
    "SMT.Fp.NetX.C122_cost_nan",
    "SMT.Fp.NetX.C122_cost_nonneg",
    "SMT.Fp.NetX.C122_training",
    "SMT.Fp.NetX.C122_perfect_fit",
    "SMT.Fp.NetX.C122_last_bias"
   ],
   "note": "np.exp, orders of summation, the weight penalty in the cost and all terms of gradient enhancement are parameters. One batch: later batches start from the NaN parameters."
  },
  {
   "property": "C123",
   "status": "proved",
   "theorems": [
    "SMT.Fp.Bench.C123_sphere_range",
    "SMT.Fp.Bench.C123_sphere_zero",
    "SMT.Fp.Bench.C123_sphere_even",
    "SMT.Fp.Bench.C123_sphere_monotone",
    "SMT.Fp.Bench.C123_sphere_derivative",
    "SMT.Fp.Bench.C123_sphere_accuracy",
    "SMT.Fp.Bench.C123_rosenbrock_range",
    "SMT.Fp.Bench.C123_rosenbrock_numbers",
    "SMT.Fp.Bench.C123_rosenbrock_single",
    "SMT.Fp.Bench.C123_rosenbrock_minimum",
    "SMT.Fp.Bench.C123_rosenbrock_derivative_nan",
    "SMT.Fp.Bench.C123_rosenbrock_unique",
    "SMT.Fp.Bench.C123_rosenbrock_domain",
    "SMT.Fp.Bench.C123_sphere_domain",
    "SMT.Fp.Bench.C123_sphere_integers",
    "SMT.Fp.Bench.C123_rosenbrock_integers"
   ],
   "note": "Rows are float64. Real parts of the complex result only: the imaginary parts are zero."
  },
  {
   "property": "C124",
   "status": "proved",
   "theorems": [
    "SMT.Fp.LpNorm.C124_order_two",
    "SMT.Fp.LpNorm.C124_order_one",
    "SMT.Fp.LpNorm.C124_even",
    "SMT.Fp.LpNorm.C124_monotone",
    "SMT.Fp.LpNorm.C124_derivative_one",
    "SMT.Fp.LpNorm.C124_derivative_one_special",
    "SMT.Fp.LpNorm.C124_derivative_two",
    "SMT.Fp.LpNorm.C124_derivative_bounded",
    "SMT.Fp.LpNorm.C124_axis",
    "SMT.Fp.LpNorm.C124_quotient"
   ],
   "note": "Orders 1 and 2 (derivatives of higher orders raise, C51). Derivatives for finite coordinates only (the unused matrix norm of order 2 may raise on others). The square root is a parameter; a computable one satisfies the conditions."
  },
  {
   "property": "C125",
   "status": "proved",
   "theorems": [
    "SMT.Fp.Tensor.C125_value_bounded",
    "SMT.Fp.Tensor.C125_value_nan",
    "SMT.Fp.Tensor.C125_derivative",
    "SMT.Fp.Tensor.C125_derivative_bounded"
   ],
   "note": "The factors func(x_i), dfunc(x_i) are parameters. NumPy's complex product is the textbook formula."
  }
 ]
}