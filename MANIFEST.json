{
 "claims": [
  {
   "property": "C01",
   "status": "proved",
   "theorems": [
    "Glum.c01_inverse_link",
    "Glum.c01_link_inverse",
    "Glum.c01_powers"
   ],
   "note": ""
  },
  {
   "property": "C02",
   "status": "proved",
   "theorems": [
    "Glum.c02_link_derivative",
    "Glum.c02_inverse_derivative",
    "Glum.c02_inverse_derivative2"
   ],
   "note": ""
  },
  {
   "property": "C03",
   "status": "proved",
   "theorems": [
    "Glum.c03_probabilities"
   ],
   "note": ""
  },
  {
   "property": "C04",
   "status": "partial",
   "theorems": [
    "Glum.c04_deviance_discrepancy_partial",
    "Glum.c04_binomial_minimum_partial",
    "Glum.c04_binomial_binary_partial",
    "Glum.c04_binomial_fractional_counterexample"
   ],
   "note": "The full statement is false of the code (proved by the counterexample theorem): the binomial unit deviance is 2 log 2 at y = mu = 1/2 (F1). Proved: all other families; binomial: non-negative, strictly smallest at mu = y, and the full claim for 0/1 observations."
  },
  {
   "property": "C05",
   "status": "proved",
   "theorems": [
    "Glum.c05_deviance_derivative",
    "Glum.c05_variance_derivative"
   ],
   "note": ""
  },
  {
   "property": "C06",
   "status": "proved",
   "theorems": [
    "Glum.c06_tweedie_alias"
   ],
   "note": ""
  },
  {
   "property": "C07",
   "status": "partial",
   "theorems": [
    "Glum.c07_deviance_sum_partial",
    "Glum.c07_tweedie_negative_counterexample"
   ],
   "note": "The full statement is false of the code (proved by the counterexample theorem): Tweedie p < 0 with a negative observation (F2). Proved for every other family, power and sample."
  },
  {
   "property": "C08",
   "status": "proved",
   "theorems": [
    "Glum.c08_fast_objective",
    "Glum.c08_fast_mean",
    "Glum.c08_generic_objective"
   ],
   "note": ""
  },
  {
   "property": "C09",
   "status": "proved",
   "theorems": [
    "Glum.c09_fast_gradient",
    "Glum.c09_gradients_agree",
    "Glum.c09_generic_gradient"
   ],
   "note": ""
  },
  {
   "property": "C10",
   "status": "proved",
   "theorems": [
    "Glum.c10_hessian_nonneg",
    "Glum.c10_generic_nonneg",
    "Glum.c10_true_hessian",
    "Glum.c10_fisher"
   ],
   "note": ""
  },
  {
   "property": "C11",
   "status": "partial",
   "theorems": [
    "Glum.c11_deviance_loglik_partial",
    "Glum.c11_negBinomial_zero_counterexample",
    "Glum.c11_binomial"
   ],
   "note": "The full statement is false of the code (proved by the counterexample theorem): negative binomial samples containing a zero, where the saturated log-likelihood is NaN (F15). Proved whenever both log-likelihoods are numbers; c11_binomial treats the binomial family."
  },
  {
   "property": "C12",
   "status": "proved",
   "theorems": [
    "Glum.c12_lin_pred"
   ],
   "note": ""
  },
  {
   "property": "C13",
   "status": "proved",
   "theorems": [
    "Glum.c13_sandwich",
    "Glum.c13_sandwich_needs_rows",
    "Glum.c13_hessian_symm_psd"
   ],
   "note": ""
  },
  {
   "property": "C14",
   "status": "proved",
   "theorems": [
    "Glum.c14_normal_equations",
    "Glum.c14_minimises"
   ],
   "note": ""
  },
  {
   "property": "C15",
   "status": "proved",
   "theorems": [
    "Glum.c15_same_predictions",
    "Glum.c15_centre_only"
   ],
   "note": ""
  },
  {
   "property": "C16",
   "status": "proved",
   "theorems": [
    "Glum.c16_same_penalty",
    "Glum.c16_same_objective",
    "Glum.c16_scaled_penalty",
    "Glum.c16_minimiser"
   ],
   "note": ""
  },
  {
   "property": "C17",
   "status": "partial",
   "theorems": [
    "Glum.c17_round_trip_partial",
    "Glum.c17_constant_column_counterexample",
    "Glum.c17_no_intercept_counterexample"
   ],
   "note": "The full statement is false of the code (proved by the counterexample theorem): constant columns (F3) and models without intercept (F5). Proved: with intercept and no near-constant column."
  },
  {
   "property": "C18",
   "status": "proved",
   "theorems": [
    "Glum.c18_bounds",
    "Glum.c18_inequalities"
   ],
   "note": ""
  },
  {
   "property": "C19",
   "status": "partial",
   "theorems": [
    "Glum.c19_cd_in_bounds",
    "Glum.c19_irls_in_bounds",
    "Glum.c19_run_in_bounds",
    "Glum.c19_start_clip_counterexample",
    "Glum.c19_reported_in_bounds_partial"
   ],
   "note": "The full statement is false of the code (proved by the counterexample theorem): start values are clipped against the user's bounds although they live on the standardised scale, so an infeasible start can be returned (F4). Proved: every visited point is within bounds when the start is within the standardised bounds."
  },
  {
   "property": "C20",
   "status": "proved",
   "theorems": [
    "Glum.c20_coordinate_step_exact",
    "Glum.c20_visit_touches_one_coordinate"
   ],
   "note": ""
  },
  {
   "property": "C21",
   "status": "proved",
   "theorems": [
    "Glum.c21_gradient_bookkeeping"
   ],
   "note": ""
  },
  {
   "property": "C22",
   "status": "proved",
   "theorems": [
    "Glum.c22_monotone_every_visit",
    "Glum.c22_run_not_worse"
   ],
   "note": ""
  },
  {
   "property": "C23",
   "status": "proved",
   "theorems": [
    "Glum.c23_norm_zero_iff_kkt",
    "Glum.c23_certificate"
   ],
   "note": ""
  },
  {
   "property": "C24",
   "status": "proved",
   "theorems": [
    "Glum.c24_exit_status",
    "Glum.c24_cycle_count",
    "Glum.c24_warns_iff",
    "Glum.c24_near_optimal"
   ],
   "note": ""
  },
  {
   "property": "C25",
   "status": "proved",
   "theorems": [
    "Glum.c25_xorshift_injective",
    "Glum.c25_state_never_zero",
    "Glum.c25_rand_int_advances",
    "Glum.c25_rand_int_in_range"
   ],
   "note": ""
  },
  {
   "property": "C26",
   "status": "proved",
   "theorems": [
    "Glum.c26_incremental_hessian"
   ],
   "note": ""
  },
  {
   "property": "C27",
   "status": "proved",
   "theorems": [
    "Glum.c27_staleness"
   ],
   "note": ""
  },
  {
   "property": "C28",
   "status": "proved",
   "theorems": [
    "Glum.c28_diagonal_shortcut",
    "Glum.c28_p2_block"
   ],
   "note": ""
  },
  {
   "property": "C29",
   "status": "proved",
   "theorems": [
    "Glum.c29_state_in_sync"
   ],
   "note": ""
  },
  {
   "property": "C30",
   "status": "proved",
   "theorems": [
    "Glum.c30_line_search"
   ],
   "note": ""
  },
  {
   "property": "C31",
   "status": "proved",
   "theorems": [
    "Glum.c31_cd_monotone_builtin",
    "Glum.c31_cd_monotone",
    "Glum.c31_ls_monotone"
   ],
   "note": ""
  },
  {
   "property": "C32",
   "status": "proved",
   "theorems": [
    "Glum.c32_accounting",
    "Glum.c32_cycles",
    "Glum.c32_converged_start"
   ],
   "note": ""
  },
  {
   "property": "C33",
   "status": "proved",
   "theorems": [
    "Glum.c33_step_rule_initially_false"
   ],
   "note": ""
  },
  {
   "property": "C34",
   "status": "proved",
   "theorems": [
    "Glum.c34_score_builtin",
    "Glum.c34_lbfgs_gradient",
    "Glum.c34_score_is_gradient"
   ],
   "note": ""
  },
  {
   "property": "C35",
   "status": "proved",
   "theorems": [
    "Glum.c35_near_optimal_builtin",
    "Glum.c35_near_optimal"
   ],
   "note": ""
  },
  {
   "property": "C36",
   "status": "proved",
   "theorems": [
    "Glum.c36_symmetrisation"
   ],
   "note": ""
  },
  {
   "property": "C37",
   "status": "proved",
   "theorems": [
    "Glum.c37_elastic_net",
    "Glum.c37_rejects"
   ],
   "note": ""
  },
  {
   "property": "C38",
   "status": "partial",
   "theorems": [
    "Glum.c38_inequality",
    "Glum.c38_bounds_partial",
    "Glum.c38_bounds_counterexample",
    "Glum.c38_l1_partial",
    "Glum.c38_l1_counterexample",
    "Glum.c38_l1_auto_counterexample",
    "Glum.c38_array_alpha_counterexample",
    "Glum.c38_closed_form",
    "Glum.c38_explicit",
    "Glum.c38_auto_runs"
   ],
   "note": "The full statement is false of the code (proved by the counterexample theorem): monotonic_constraints with bounds and solver=\"auto\" ignores the bounds (F17); with an alpha search the L1 check is skipped (F10); numpy-array alphas raise (F18). Proved: inequality constraints in full, bounds without monotonic constraints, L1 for a single alpha or automatic choice."
  },
  {
   "property": "C39",
   "status": "proved",
   "theorems": [
    "Glum.c39_grid",
    "Glum.c39_min_alpha_rejected",
    "Glum.c39_path",
    "Glum.c39_ridge_start"
   ],
   "note": ""
  },
  {
   "property": "C40",
   "status": "partial",
   "theorems": [
    "Glum.c40_zero_optimal_partial",
    "Glum.c40_offset_counterexample"
   ],
   "note": "The full statement is false of the code (proved by the counterexample theorem): with an intercept and an offset the path starts too low (F11). Proved: no offset or no intercept, all features L1-penalised, exact guessed intercept."
  },
  {
   "property": "C41",
   "status": "proved",
   "theorems": [
    "Glum.c41_path",
    "Glum.c41_stored"
   ],
   "note": ""
  },
  {
   "property": "C42",
   "status": "proved",
   "theorems": [
    "Glum.c42_lookup",
    "Glum.c42_found",
    "Glum.c42_predict_at",
    "Glum.c42_member",
    "Glum.c42_both_rejected",
    "Glum.c42_index"
   ],
   "note": ""
  },
  {
   "property": "C43",
   "status": "partial",
   "theorems": [
    "Glum.c43_alpha_index",
    "Glum.c43_alpha",
    "Glum.c43_predict_partial",
    "Glum.c43_weights_counterexample"
   ],
   "note": "The full statement is false of the code (proved by the counterexample theorem): predict with sample_weight and several alphas scales along the alpha axis (F20). Proved: alpha lookup in full, linear_predictor and predict without sample_weight."
  },
  {
   "property": "C44",
   "status": "proved",
   "theorems": [
    "Glum.c44_offset"
   ],
   "note": ""
  },
  {
   "property": "C45",
   "status": "partial",
   "theorems": [
    "Glum.c45_constant_prediction",
    "Glum.c45_score_le_one",
    "Glum.c45_perfect_partial",
    "Glum.c45_binomial_counterexample"
   ],
   "note": "The full statement is false of the code (proved by the counterexample theorem): binomial family with proportions (consequence of F1). Proved: score <= 1 always, and = 1 iff perfect for every other family."
  },
  {
   "property": "C46",
   "status": "proved",
   "theorems": [
    "Glum.c46_restored",
    "Glum.c46_normalised",
    "Glum.c46_scale_invariant",
    "Glum.c46_objective"
   ],
   "note": ""
  },
  {
   "property": "C47",
   "status": "proved",
   "theorems": [
    "Glum.c47_same_fit",
    "Glum.c47_normalised",
    "Glum.c47_drop_zero"
   ],
   "note": ""
  },
  {
   "property": "C48",
   "status": "partial",
   "theorems": [
    "Glum.c48_check_weights_partial",
    "Glum.c48_scalar_nan_counterexample",
    "Glum.c48_arrays"
   ],
   "note": "The full statement is false of the code (proved by the counterexample theorem): a scalar NaN or infinite weight is accepted (F21). Proved: over finite numbers, and over extended numbers for arrays."
  },
  {
   "property": "C49",
   "status": "partial",
   "theorems": [
    "Glum.c49_robust_psd_partial",
    "Glum.c49_nonrobust",
    "Glum.c49_weight_sum_counterexample"
   ],
   "note": "The full statement is false of the code (proved by the counterexample theorem): weights that sum to less than the number of parameters give a negative robust covariance (F23). Proved: symmetric and positive semidefinite whenever the weights sum to more."
  },
  {
   "property": "C50",
   "status": "partial",
   "theorems": [
    "Glum.c50_robust",
    "Glum.c50_clustered_partial",
    "Glum.c50_nonrobust",
    "Glum.c50_singletons",
    "Glum.c50_dispersion_free",
    "Glum.c50_documented_factor_counterexample",
    "Glum.c50_default_dispersion"
   ],
   "note": "The full statement is false of the code (proved by the counterexample theorem): the clustered factor is M/(M-1)*(N-1)/(N-p), documented is N/(N-p) (F22). Proved: sandwich formula for robust, clustered and non-robust matrices with the factor the code uses; singleton clusters reproduce the robust one up to that factor."
  },
  {
   "property": "C51",
   "status": "partial",
   "theorems": [
    "Glum.c51_group_sum_partial",
    "Glum.c51_labels_counterexample"
   ],
   "note": "The full statement is false of the code (proved by the counterexample theorem): labels other than 0..k-1 may merge clusters (-1, 1) or raise (F9). Proved for labels 0..k-1."
  },
  {
   "property": "C52",
   "status": "proved",
   "theorems": [
    "Glum.c52_terms",
    "Glum.c52_test_features",
    "Glum.c52_formula",
    "Glum.c52_shapes",
    "Glum.c52_nonneg",
    "Glum.c52_posdef",
    "Glum.c52_reparametrise",
    "Glum.c52_t_squared",
    "Glum.c52_features",
    "Glum.c52_one_specification"
   ],
   "note": ""
  },
  {
   "property": "C53",
   "status": "partial",
   "theorems": [
    "Glum.c53_R_default_counterexample",
    "Glum.c53_default_partial"
   ],
   "note": "The full statement is false of the code (proved by the counterexample theorem): wald_test(R=R) without r raises (F8). Proved for features and terms."
  },
  {
   "property": "C54",
   "status": "partial",
   "theorems": [
    "Glum.c54_formulas_partial",
    "Glum.c54_other_rows",
    "Glum.c54_aicc_ge_aic",
    "Glum.c54_offset_counterexample"
   ],
   "note": "The full statement is false of the code (proved by the counterexample theorem): the criteria ignore the offset of the fit, and later calls return cached values (F7). Proved: first call, no offset."
  },
  {
   "property": "C55",
   "status": "proved",
   "theorems": [
    "Glum.c55_fit_resets",
    "Glum.c55_fit_stores",
    "Glum.c55_call_stores",
    "Glum.c55_stored_stays",
    "Glum.c55_no_silent_options",
    "Glum.c55_options_rejected",
    "Glum.c55_options_override",
    "Glum.c55_options_default"
   ],
   "note": ""
  },
  {
   "property": "C56",
   "status": "proved",
   "theorems": [
    "Glum.c56_expansion",
    "Glum.c56_length",
    "Glum.c56_other",
    "Glum.c56_string_counterexample"
   ],
   "note": ""
  },
  {
   "property": "C57",
   "status": "partial",
   "theorems": [
    "Glum.c57_column_partial",
    "Glum.c57_frame_partial",
    "Glum.c57_fit_design",
    "Glum.c57_training_frame_partial",
    "Glum.c57_unseen_raises",
    "Glum.c57_literal_missing_counterexample",
    "Glum.c57_order_counterexample",
    "Glum.c57_predict_aligned"
   ],
   "note": "The full statement is false of the code (proved by the counterexample theorem): a literal level \"(MISSING)\" makes prediction on the training frame raise (F25); column names are not compared (F26). Proved: every frame with the training columns in training order and no clash of names."
  },
  {
   "property": "C58",
   "status": "proved",
   "theorems": [
    "Glum.c58_parse_render",
    "Glum.c58_parse_sound",
    "Glum.c58_rows",
    "Glum.c58_raises",
    "Glum.c58_resolve",
    "Glum.c58_shared_factor_counterexample",
    "Glum.c58_lexicographic_counterexample",
    "Glum.c58_reference_level_counterexample",
    "Glum.c58_numeric_interaction_counterexample",
    "Glum.c58_colon_counterexample",
    "Glum.c58_numeric_levels",
    "Glum.c58_text_levels",
    "Glum.c58_base_name",
    "Glum.c58_transform_rejected",
    "Glum.c58_transform_accepted"
   ],
   "note": ""
  },
  {
   "property": "C59",
   "status": "proved",
   "theorems": [
    "Glum.c59_rejects",
    "Glum.c59_no_warning_feasible",
    "Glum.c59_accounting",
    "Glum.c59_penalised_objective",
    "Glum.c59_hessian"
   ],
   "note": ""
  },
  {
   "property": "C60",
   "status": "proved",
   "theorems": [
    "Glum.c60_select",
    "Glum.c60_deviance",
    "Glum.c60_folds",
    "Glum.c60_coef",
    "Glum.c60_predict",
    "Glum.c60_alphas",
    "Glum.c60_paths",
    "Glum.c60_paths_fit"
   ],
   "note": ""
  },
  {
   "property": "C61",
   "status": "proved",
   "theorems": [
    "Glum.c61_collect",
    "Glum.c61_sequential",
    "Glum.c61_schedule",
    "Glum.c61_layout",
    "Glum.c61_raises"
   ],
   "note": ""
  },
  {
   "property": "C62",
   "status": "proved",
   "theorems": [
    "Glum.c62_truncation_error",
    "Glum.c62_series_window"
   ],
   "note": ""
  },
  {
   "property": "C63",
   "status": "proved",
   "theorems": [
    "Glum.c63_log_tweedie",
    "Glum.c63_identity_normal",
    "Glum.c63_logit_binomial",
    "Glum.c63_no_offset"
   ],
   "note": ""
  },
  {
   "property": "C64",
   "status": "partial",
   "theorems": [
    "Glum.c64_latest_fit_partial",
    "Glum.c64_stale_criteria_counterexample",
    "Glum.c64_stale_formula_counterexample",
    "Glum.c64_failed_fit_counterexample",
    "Glum.c64_predict_formula"
   ],
   "note": "The full statement is false of the code (proved by the counterexample theorem): stale criteria (F7), stale model spec of an earlier formula fit (F12), failing refits are not atomic (F24). Proved: every other attribute, for every history, without warm_start."
  },
  {
   "property": "C65",
   "status": "proved",
   "theorems": [
    "Glum.c65_terms",
    "Glum.c65_accepts",
    "Glum.c65_response",
    "Glum.c65_object"
   ],
   "note": ""
  },
  {
   "property": "C66",
   "status": "proved",
   "theorems": [
    "Glum.c66_screening_safe",
    "Glum.c66_no_intercept_all_active",
    "Glum.c66_no_l1_all_active"
   ],
   "note": ""
  },
  {
   "property": "C67",
   "status": "proved",
   "theorems": [
    "Glum.c67_score_row",
    "Glum.c67_observed_row",
    "Glum.c67_fisher_row",
    "Glum.c67_information"
   ],
   "note": ""
  },
  {
   "property": "C68",
   "status": "proved",
   "theorems": [
    "Glum.c68_coef_table"
   ],
   "note": ""
  },
  {
   "property": "C69",
   "status": "partial",
   "theorems": [
    "Glum.c69_certificate",
    "Glum.c69_optimal_partial",
    "Glum.c69_wrong_sign_counterexample"
   ],
   "note": "The full statement is false of the code (proved by the counterexample theorem): the monotone solver can report convergence at a non-optimal point (F30). Proved: optimal whenever the rows penalised in the last pass end with the right sign."
  },
  {
   "property": "C70",
   "status": "proved",
   "theorems": [
    "Glum.c70_fit",
    "Glum.c70_exact",
    "Glum.c70_returns_iff"
   ],
   "note": ""
  },
  {
   "property": "C71",
   "status": "proved",
   "theorems": [
    "Glum.c71_no_leakage"
   ],
   "note": ""
  },
  {
   "property": "C72",
   "status": "proved",
   "theorems": [
    "Glum.c72_density",
    "Glum.c72_weighted_sum"
   ],
   "note": ""
  },
  {
   "property": "C73",
   "status": "proved",
   "theorems": [
    "Glum.c73_replication",
    "Glum.c73_pearson_expectation",
    "Glum.c73_default_weights",
    "Glum.c73_ddof"
   ],
   "note": ""
  },
  {
   "property": "C74",
   "status": "proved",
   "theorems": [
    "Glum.c74_not_worse_than_null"
   ],
   "note": ""
  },
  {
   "property": "C75",
   "status": "proved",
   "theorems": [
    "Glum.c75_no_warning_near_optimal"
   ],
   "note": ""
  },
  {
   "property": "C76",
   "status": "partial",
   "theorems": [
    "Glum.c76_ls_one_iteration",
    "Glum.c76_cd_one_iteration_partial",
    "Glum.c76_fit_ls",
    "Glum.c76_counterexample"
   ],
   "note": "The full statement is false of the code (proved by the counterexample theorem): with an intercept and an L1 penalty the only iteration may screen out a needed feature: ConvergenceWarning and a non-optimal result for every max_iter (F34). Proved: least squares and ridge with irls-ls from the user's arguments (exact minimiser, no warning); irls-cd without intercept or without L1 penalty, if the inner solver did not warn and made at most 9999 coordinate visits."
  },
  {
   "property": "C77",
   "status": "proved",
   "theorems": [
    "Glum.c77_intercept_equation",
    "Glum.c77_balance",
    "Glum.c77_feature_equation"
   ],
   "note": ""
  },
  {
   "property": "C78",
   "status": "proved",
   "theorems": [
    "Glum.c78_fits_agree",
    "Glum.c78_curvature_ridge",
    "Glum.c78_curvature_normal"
   ],
   "note": ""
  },
  {
   "property": "C79",
   "status": "proved",
   "theorems": [
    "Glum.c79_units",
    "Glum.c79_same_predictions"
   ],
   "note": ""
  },
  {
   "property": "C80",
   "status": "partial",
   "theorems": [
    "Glum.c80_refit_partial",
    "Glum.c80_no_intercept_counterexample"
   ],
   "note": "The full statement is false of the code (proved by the counterexample theorem): without intercept the start is not put on the solver's scale, so a refit from the solution does not start at it (F5). Proved: with intercept, without bounds and nearly constant columns."
  },
  {
   "property": "C81",
   "status": "proved",
   "theorems": [
    "Glum.c81_solver",
    "Glum.c81_rowBlind_cd",
    "Glum.c81_rowBlind_ls",
    "Glum.c81_fit",
    "Glum.c81_row_order",
    "Glum.c81_frequencies"
   ],
   "note": ""
  },
  {
   "property": "C82",
   "status": "partial",
   "theorems": [
    "Glum.c82_verdict",
    "Glum.c82_total_partial",
    "Glum.c82_large_sparse_counterexample",
    "Glum.c82_fit",
    "Glum.c82_psd_passes_partial"
   ],
   "note": "The full statement is false of the code (proved by the counterexample theorem): for a sparse P2 with 2000 or more features the check calls scipy.linalg.eigsh, which does not exist, and fit raises AttributeError (F36). Proved for every other P2."
  },
  {
   "property": "C83",
   "status": "partial",
   "theorems": [
    "Glum.c83_family_partial",
    "Glum.c83_parameters",
    "Glum.c83_link_partial",
    "Glum.c83_auto_link_partial",
    "Glum.c83_garbage_counterexample",
    "Glum.c83_auto_link_counterexample"
   ],
   "note": "The full statement is false of the code (proved by the counterexample theorem): re.search ignores text around the pattern, the dot of negative.binomial matches any character and nan is accepted as Tweedie power (F37); for a negative Tweedie power the automatic link is the identity, which yields impossible means (F38). Proved for every string without bracket, every documented call form, and every other family."
  },
  {
   "property": "C84",
   "status": "proved",
   "theorems": [
    "Glum.c84_inner_terminates",
    "Glum.c84_strongly_convex",
    "Glum.c84_distance",
    "Glum.c84_irls"
   ],
   "note": "Cyclic selection (the default); the iteration version needs hessian_approx=0 and a Hessian with curvature above 16 eps. Exact arithmetic."
  },
  {
   "property": "C85",
   "status": "proved",
   "theorems": [
    "Glum.c85_ls_converges",
    "Glum.c85_ls_ends",
    "Glum.c85_bounded_level",
    "Glum.c85_builtin",
    "Glum.c85_normal",
    "Glum.c85_step_tol",
    "Glum.c85_cd_ends"
   ],
   "note": "irls-ls (the linear solver is a parameter with the contract H d = score); c85_step_tol covers irls-cd with step_size_tol. Exact arithmetic."
  },
  {
   "property": "C86",
   "status": "proved",
   "theorems": [
    "Glum.c86_linear",
    "Glum.c86_distance",
    "Glum.c86_squared_error",
    "Glum.c86_accuracy"
   ],
   "note": "Cyclic selection. c86_squared_error and c86_accuracy have no hypothesis on the course of the iteration; c86_linear and c86_distance (any family) assume that every iteration changes the objective by more than the 16 eps round-off allowance, because the line search accepts steps below it without any decrease. Exact arithmetic."
  },
  {
   "property": "C87",
   "status": "proved",
   "theorems": [
    "Glum.c87_shiftBlind_ls",
    "Glum.c87_fit",
    "Glum.c87_irls_ls",
    "Glum.c87_objective",
    "Glum.c87_converged_fits_agree",
    "Glum.c87_cd_looks_at_intercept",
    "Glum.c87_search_counterexample"
   ],
   "note": "c87_fit is exact for irls-ls (any linear solver). irls-cd is covered by c87_objective and c87_converged_fits_agree; it is not exactly invariant because its stopping test looks at the size of the intercept (c87_cd_looks_at_intercept). Not part of the property, and false: a computed alpha path (c87_search_counterexample: _get_alpha_path guesses the intercept without the offset). Exact arithmetic."
  },
  {
   "property": "C88",
   "status": "proved",
   "theorems": [
    "Glum.c88_cd",
    "Glum.c88_signBlind_cd",
    "Glum.c88_signBlind_ls",
    "Glum.c88_fit",
    "Glum.c88_negated_feature",
    "Glum.c88_exchanged_labels",
    "Glum.c88_same_predictions"
   ],
   "note": "irls-cd: any penalties, bounds, coordinate selection; irls-ls: for a linear solver that commutes with changes of sign (c88_signBlind_ls), which any solver of a nonsingular system does. Exact arithmetic; tabmat means and standard deviations by contract."
  },
  {
   "property": "C89",
   "status": "proved",
   "theorems": [
    "Glum.c89_objective",
    "Glum.c89_reordered_fits_agree"
   ],
   "note": "Built-in convex family/link pairs (ConvexFit), no step_size_tol. The curvature hypothesis is met by ridge penalties and by squared error (c78_curvature_ridge, c78_curvature_normal). Exact arithmetic."
  },
  {
   "property": "C90",
   "status": "proved",
   "theorems": [
    "Glum.c90_fits_converge_unique",
    "Glum.c90_unique_solution",
    "Glum.c90_fits_converge"
   ],
   "note": "Built-in convex family/link pairs (ConvexFit), no step_size_tol; regularity stated as RegularFit. Exact arithmetic."
  },
  {
   "property": "C91",
   "status": "proved",
   "theorems": [
    "Glum.c91_solutions",
    "Glum.c91_path_shrinks",
    "Glum.c91_size"
   ],
   "note": "Built-in convex family/link pairs (ConvexFit), no step_size_tol for the fit-level theorems. Exact arithmetic."
  },
  {
   "property": "C92",
   "status": "proved",
   "theorems": [
    "Glum.c92_deviance_homogeneous",
    "Glum.c92_objective_log",
    "Glum.c92_solutions_log",
    "Glum.c92_fits_agree_log",
    "Glum.c92_objective_identity",
    "Glum.c92_solutions_identity",
    "Glum.c92_fits_agree_identity",
    "Glum.c92_limits_log"
   ],
   "note": "Fit-level theorems: built-in convex family/link pairs (ConvexFit), no step_size_tol; c92_fits_agree_* under a curvature hypothesis, c92_limits_log without it. Exact arithmetic."
  },
  {
   "property": "C93",
   "status": "proved",
   "theorems": [
    "Glum.c93_constant_model",
    "Glum.c93_threshold",
    "Glum.c93_strong_penalty",
    "Glum.c93_path_first"
   ],
   "note": "Built-in convex family/link pairs (ConvexFit); with an intercept and an offset, families whose intercept guess ignores the offset (binomial, negative binomial) are excluded. Exact arithmetic."
  },
  {
   "property": "C94",
   "status": "proved",
   "theorems": [
    "Glum.c94_solution_continuous",
    "Glum.c94_fits_stable",
    "Glum.c94_alpha_continuous"
   ],
   "note": "Built-in convex family/link pairs (ConvexFit) with a unique solution (RegularFit), no step_size_tol, bounds unchanged. Exact arithmetic."
  },
  {
   "property": "C95",
   "status": "proved",
   "theorems": [
    "Glum.c95_loads",
    "Glum.c95_keeps",
    "Glum.c95_roundtrip",
    "Glum.c95_idempotent",
    "Glum.c95_levels",
    "Glum.c95_levels_fallback"
   ],
   "note": "Values are opaque except the ones __setstate__ looks at; the pickle protocol itself (bytes) is not modelled."
  },
  {
   "property": "C96",
   "status": "proved",
   "theorems": [
    "Glum.c96_same_fit",
    "Glum.c96_diagnostics",
    "Glum.c96_objective_falls",
    "Glum.c96_report",
    "Glum.c96_intercept_column"
   ],
   "note": "Built-in convex family/link pairs (ConvexFit), no step_size_tol; timings, n_active_rows and n_line_search are not modelled. The column called intercept is on the centred scale and differs from intercept_ (example in the file). Exact arithmetic."
  },
  {
   "property": "C97",
   "status": "partial",
   "theorems": [
    "Glum.c97_family",
    "Glum.c97_none",
    "Glum.c97_objective",
    "Glum.c97_fit",
    "Glum.c97_irls",
    "Glum.c97_covariance",
    "Glum.c97_score",
    "Glum.c97_normal_counterexample",
    "Glum.c97_solver",
    "Glum.c97_link",
    "Glum.c97_link_counterexample"
   ],
   "note": "The full statement is false of the code: TweedieDistribution(0) is not an instance of NormalDistribution, so with the identity link solver=closed-form refuses it and auto picks another solver (c97_normal_counterexample); TweedieLink(0)/TweedieLink(1) refuse a constant response and start elsewhere (c97_link_counterexample). Everything else is proved. Powers are exact reals (the code rounds them to float32)."
  },
  {
   "property": "C98",
   "status": "proved",
   "theorems": [
    "Glum.c98_range",
    "Glum.c98_accept",
    "Glum.c98_family_eq",
    "Glum.c98_link_eq",
    "Glum.c98_equivalence",
    "Glum.c98_eq_counterexample"
   ],
   "note": "== is not reflexive for TweedieDistribution(nan), which the constructor accepts, and not to_tweedie-equality (c98_eq_counterexample). Comparison with objects of user-defined subclasses is not modelled."
  },
  {
   "property": "C99",
   "status": "partial",
   "theorems": [
    "Glum.c99_frame_partial",
    "Glum.c99_history_partial",
    "Glum.c99_refines_partial",
    "Glum.c99_cv_partial",
    "Glum.c99_warm_counterexample"
   ],
   "note": "The full statement is false of the code: with warm_start and without intercept the start is the array coef_ itself, which is clipped to the bounds and (if the solver makes no iteration) rescaled in place, so an earlier coef_ held by the caller changes (c99_warm_counterexample). Everything else is proved: frame, histories, refinement of the functional model of fit, cross-validation jobs. Not covered: memory after fit raises; scipy's and tabmat's own internal writes."
  },
  {
   "property": "C100",
   "status": "proved",
   "theorems": [
    "Glum.c100_arrays",
    "Glum.c100_sums",
    "Glum.c100_race_free",
    "Glum.c100_ends",
    "Glum.c100_outcome",
    "Glum.c100_kernels",
    "Glum.c100_eta_mu_deviance",
    "Glum.c100_gradient_hessian",
    "Glum.c100_sum_routines",
    "Glum.c100_deviance",
    "Glum.c100_log_likelihood",
    "Glum.c100_active_rows",
    "Glum.c100_needs_row_local",
    "Glum.c100_float_counterexample"
   ],
   "note": "Sums of floats (unlike arrays) do depend on the schedule: c100_float_counterexample, with an addition that rounds. Trusted: Cython makes variables assigned in the body private and variables updated in place reductions; OpenMP gives each iteration to one thread; aligned loads and stores of single elements are atomic. Negative binomial likelihood: where it is a number."
  },
  {
   "property": "C101",
   "status": "proved",
   "theorems": [
    "Glum.c101_responses",
    "Glum.c101_response_up",
    "Glum.c101_fits",
    "Glum.c101_weight_up",
    "Glum.c101_leave_one_out",
    "Glum.c101_weight_fits"
   ],
   "note": "Fits: the convex family/link pairs with compiled routines (ConvexFit). Weights: with scale_predictors=False or a fixed penalty scale, since the scale itself depends on the weights."
  },
  {
   "property": "C102",
   "status": "proved",
   "theorems": [
    "Glum.c102_solutions",
    "Glum.c102_fits"
   ],
   "note": "Fits: the convex family/link pairs with compiled routines."
  },
  {
   "property": "C103",
   "status": "proved",
   "theorems": [
    "Glum.c103_signs",
    "Glum.c103_zeros",
    "Glum.c103_refines",
    "Glum.c103_bounds_counterexample"
   ],
   "note": "No overflow, NaN or fused multiply-add. For bounds other than zero c103_bounds_counterexample shows a floating-point format in which the reported coefficient violates the bound."
  },
  {
   "property": "C104",
   "status": "proved",
   "theorems": [
    "Glum.c104_matrix",
    "Glum.c104_weights",
    "Glum.c104_frame",
    "Glum.c104_errors"
   ],
   "note": "Not covered: formula fits (the model matrix is made by formulaic); a list of alphas with sample_weight (broadcast along the wrong axis, see c43_weights_counterexample); weights of the selection that are all zero (rejected)."
  },
  {
   "property": "C105",
   "status": "proved",
   "theorems": [
    "Glum.c105_covariance",
    "Glum.c105_predictor",
    "Glum.c105_wald",
    "Glum.c105_table"
   ],
   "note": "The condition-number test before the formulas is not invariant under recoding; the theorem assumes the same outcome. Exact arithmetic."
  },
  {
   "property": "C106",
   "status": "proved",
   "theorems": [
    "Glum.c106_cd_cyclic",
    "Glum.c106_cd_random_example",
    "Glum.c106_fit_cyclic",
    "Glum.c106_fit_integer",
    "Glum.c106_integer_leaves_generator",
    "Glum.c106_shared_draws",
    "Glum.c106_shared_fit_draws",
    "Glum.c106_cv_cyclic",
    "Glum.c106_cv_integer",
    "Glum.c106_seeds_within_tolerance",
    "Glum.c106_example"
   ],
   "note": "The numpy generator is an arbitrary state machine; check_random_state is a stated contract (values other than int/instance/None not modelled)."
  },
  {
   "property": "C107",
   "status": "partial",
   "theorems": [
    "Glum.c107_nan_row_not_converged_partial",
    "Glum.c107_nonzero_coefficient_partial",
    "Glum.c107_no_nan_coefficients",
    "Glum.c107_features_finite",
    "Glum.c107_nan_guess_raises",
    "Glum.c107_nan_weight_raises",
    "Glum.c107_line_search",
    "Glum.c107_counterexample",
    "Glum.c107_example_silent",
    "Glum.c107_example_raises"
   ],
   "note": "The full statement (a NaN gradient is never reported as converged) is false without intercept: from the cold start the solver reports convergence with zero coefficients (c107_counterexample, finding F39)."
  },
  {
   "property": "C108",
   "status": "partial",
   "theorems": [
    "Glum.c108_accepted_iff",
    "Glum.c108_accepted_finite_partial",
    "Glum.c108_always_finite",
    "Glum.c108_counterexample",
    "Glum.c108_example",
    "Glum.c108_p1_none_counterexample",
    "Glum.c108_nan_penalty_raises",
    "Glum.c108_nan_tolerance",
    "Glum.c108_nan_bound_subgradient",
    "Glum.c108_nan_bound_descent",
    "Glum.c108_infinite_bounds",
    "Glum.c108_nan_alpha_raises",
    "Glum.c108_infinite_alpha_raises",
    "Glum.c108_nan_bound_start",
    "Glum.c108_nan_bound_example"
   ],
   "note": "The full statement (every accepted argument is a finite number or a meaningful infinity) is false: c108_counterexample (NaN scalars are accepted), c108_p1_none_counterexample (P1=None, documented, raises; finding F40)."
  },
  {
   "property": "C109",
   "status": "proved",
   "theorems": [
    "Glum.c109_dispersion",
    "Glum.c109_nonrobust",
    "Glum.c109_clustered",
    "Glum.c109_robust_rows",
    "Glum.c109_robust_copies",
    "Glum.c109_log_likelihood",
    "Glum.c109_robust_scale",
    "Glum.c109_nonrobust_scale",
    "Glum.c109_example"
   ],
   "note": "The predictions on the copies are those of the original rows (C47/C81 show that the fits agree)."
  },
  {
   "property": "C110",
   "status": "proved",
   "theorems": [
    "Glum.c110_dot",
    "Glum.c110_drift",
    "Glum.c110_start",
    "Glum.c110_norm",
    "Glum.c110_score",
    "Glum.c110_converged",
    "Glum.c110_refines",
    "Glum.c110_drift_grows",
    "Glum.c110_exact_claim_counterexample",
    "Glum.c110_example"
   ],
   "note": "The accuracy of the row kernels and of the penalty product, bounds on coefficients and linear predictor along the run, and the absence of overflow are hypotheses; c110_dot gives the accuracy of matrix products for every order of additions. c110_exact_claim_counterexample: the bound without rounding terms (C35) is false in rounded arithmetic; c110_drift_grows: the drift does grow with the number of passes."
  },
  {
   "property": "C111",
   "status": "partial",
   "theorems": [
    "Glum.c111_raises_iff",
    "Glum.c111_mean_or_error_partial",
    "Glum.c111_negative",
    "Glum.c111_mean_or_error_counterexample",
    "Glum.c111_fit",
    "Glum.c111_fit_raises_counterexample"
   ],
   "note": "False of the code for the powers 1 + 1/m (2, 3/2, 4/3, ...): negative linear predictors are accepted, with a negative mean (odd m) or the mean of the opposite predictor (even m): c111_negative, c111_mean_or_error_counterexample. Also proved: which powers raise (c111_raises_iff), what a fit does (c111_fit), and that a fit gives up on a trial step that two halvings would have repaired (c111_fit_raises_counterexample). Powers and exponents are exact; the code rounds non-integer powers to float32."
  },
  {
   "property": "C112",
   "status": "partial",
   "theorems": [
    "Glum.c112_effect_partial",
    "Glum.c112_levels_partial",
    "Glum.c112_feasible",
    "Glum.c112_predictions_partial",
    "Glum.c112_tolerance_counterexample",
    "Glum.c112_example",
    "Glum.c112_spline_counterexample",
    "Glum.c112_link_counterexample"
   ],
   "note": "Proved for increasing links, non-negative interacting factors, and terms whose columns are complete (one-hot with all levels, bases that sum to one) or single numbers, up to 1e-6 times the distance moved: c112_feasible, c112_effect_partial, c112_levels_partial, c112_predictions_partial. False of the code otherwise: exact monotonicity fails because rows may be violated by 1e-6 (c112_tolerance_counterexample); splines without their first basis function, as in the tutorial, are not constrained at all on the left (c112_spline_counterexample); decreasing links reverse the direction (c112_link_counterexample); see also the C58 counterexamples for reference levels and interactions."
  },
  {
   "property": "C113",
   "status": "proved",
   "theorems": [
    "Glum.c113_solution_iff",
    "Glum.c113_interior",
    "Glum.c113_coefficients_diverge",
    "Glum.c113_silent_fit"
   ],
   "note": "c113_solution_iff, c113_interior, c113_coefficients_diverge; c113_silent_fit shows that separated data are fitted without any warning (finding F46)."
  },
  {
   "property": "C114",
   "status": "partial",
   "theorems": [
    "Glum.c114_values",
    "Glum.c114_exact",
    "Glum.c114_accepts",
    "Glum.c114_same_fit",
    "Glum.c114_standardized_counterexample",
    "Glum.c114_copy_none",
    "Glum.c114_copy_false_partial",
    "Glum.c114_copy_false_counterexample",
    "Glum.c114_copy_true_partial",
    "Glum.c114_copy_true_counterexample",
    "Glum.c114_predict_counterexample",
    "Glum.c114_response_partial",
    "Glum.c114_response_counterexample"
   ],
   "note": "c114_values, c114_exact, c114_accepts, c114_same_fit, c114_copy_none in full; the parts about copy_X=False, copy_X=True, standardised matrices, predict and y are false of the code in corner cases (findings F47-F50) and proved outside them (_partial)."
  },
  {
   "property": "C115",
   "status": "partial",
   "theorems": [
    "Glum.c115_logit_rows",
    "Glum.c115_logit_deviance",
    "Glum.c115_square_deviance",
    "Glum.c115_row_not_nan_partial",
    "Glum.c115_finite_rows_partial",
    "Glum.c115_finite_deviance_partial",
    "Glum.c115_zero_weight_counterexample",
    "Glum.c115_tweedie_counterexample",
    "Glum.c115_inverse_gaussian_counterexample"
   ],
   "note": "c115_logit_rows, c115_logit_deviance, c115_square_deviance in full; false of the code for weight zero, for Tweedie at means that underflow or overflow, and for the inverse Gaussian gradient at tiny means (findings F51, F52), proved for the others (_partial; Poisson and negative binomial rows if y*eta does not overflow)."
  },
  {
   "property": "C116",
   "status": "proved",
   "theorems": [
    "Glum.c116_fold",
    "Glum.c116_alphas",
    "Glum.c116_cv"
   ],
   "note": "c116_fold, c116_alphas, c116_cv."
  },
  {
   "property": "C117",
   "status": "partial",
   "theorems": [
    "Glum.c117_deviance_partial",
    "Glum.c117_log_likelihood_partial",
    "Glum.c117_binomial_partial",
    "Glum.c117_dispersion_partial",
    "Glum.c117_lengths",
    "Glum.c117_binomial_counterexample",
    "Glum.c117_list_counterexample",
    "Glum.c117_zero_dim_counterexample"
   ],
   "note": "c117_lengths in full; the values are proved for what the family accepts (_partial). False of the code: the binomial log-likelihood with a scalar weight returns an array, GHS and binomial refuse lists, the compiled families refuse numpy scalars alone (finding F53)."
  },
  {
   "property": "C118",
   "status": "proved",
   "theorems": [
    "Glum.c118_linear_predictor",
    "Glum.c118_predictions",
    "Glum.c118_decreasing",
    "Glum.c118_fit",
    "Glum.c118_fit_negative",
    "Glum.c118_sparse",
    "Glum.c118_sparse_predictions"
   ],
   "note": "c118_linear_predictor, c118_predictions, c118_decreasing, c118_fit, c118_fit_negative, c118_sparse, c118_sparse_predictions. Contracts: rounding monotone, exp, expm1 and pow of the library monotone."
  },
  {
   "property": "C119",
   "status": "proved",
   "theorems": [
    "Glum.c119_lbfgs_near_optimal",
    "Glum.c119_trust_constr",
    "Glum.c119_lbfgs_not_worse_than_null",
    "Glum.c119_reports"
   ],
   "note": "c119_lbfgs_near_optimal, c119_lbfgs_not_worse_than_null, c119_trust_constr, c119_reports. Contracts: fmin_l_bfgs_b never increases the objective and honours pgtol when it stops on it (it may also stop silently on the relative reduction, about which nothing is claimed); minimize(trust-constr) meets first-order conditions up to given accuracies on success. The means of the result must not be clipped (logit); the null-model theorem excludes the logit link."
  },
  {
   "property": "C120",
   "status": "partial",
   "theorems": [
    "Glum.c120_undefined_selected_counterexample",
    "Glum.c120_valid_partial",
    "Glum.c120_negative_deviance_counterexample"
   ],
   "note": "Proved (c120_valid_partial): when all held-out means are in range, the floating-point selection (NaN, infinities, numpy's argmin loop) is the exact one, minimal and non-negative. False in general: c120_undefined_selected_counterexample (for all data: one undefined held-out deviance, even at weight zero, makes argmin return a NaN combination, never one with valid means), c120_negative_deviance_counterexample (concrete fit: a negative Poisson mean gives deviance -1 and wins over a valid model). Finding F54."
  },
  {
   "property": "C121",
   "status": "proved",
   "theorems": [
    "Glum.c121_solver",
    "Glum.c121_fit",
    "Glum.c121_objective",
    "Glum.c121_solutions",
    "Glum.c121_limits",
    "Glum.c121_nonrobust",
    "Glum.c121_clustered",
    "Glum.c121_dispersion",
    "Glum.c121_constant_after_merging",
    "Glum.c121_dispersion_changes"
   ],
   "note": "exact equality of fits for pairs whose computed deviance is linear in y; objective, solutions and limits for all families in range; c121_constant_after_merging shows why responses must still vary; c121_dispersion_changes shows the estimated dispersion does change"
  },
  {
   "property": "C122",
   "status": "proved",
   "theorems": [
    "Glum.c122_objective",
    "Glum.c122_solutions",
    "Glum.c122_limits",
    "Glum.c122_covariance",
    "Glum.c122_dispersion",
    "Glum.c122_factors_differ"
   ],
   "note": "c122_factors_differ: the standard errors of the two formulations do differ by the degrees-of-freedom factor (weights count as observations)"
  },
  {
   "property": "C123",
   "status": "proved",
   "theorems": [
    "Glum.c123_solutions",
    "Glum.c123_unique",
    "Glum.c123_recovered",
    "Glum.c123_least_squares",
    "Glum.c123_penalised",
    "Glum.c123_ridge_shrinks"
   ],
   "note": "c123_ridge_shrinks: with a ridge penalty the truth is not a solution; c90_fits_converge_unique removes the ridge assumption from C90"
  },
  {
   "property": "C124",
   "status": "proved",
   "theorems": [
    "Glum.c124_predictions",
    "Glum.c124_recoding",
    "Glum.c124_fits",
    "Glum.c124_fitted_values",
    "Glum.c124_ridge_sees_coding"
   ],
   "note": "c124_ridge_sees_coding: with a ridge penalty entering a feature twice changes the predictions"
  },
  {
   "property": "C125",
   "status": "proved",
   "theorems": [
    "Glum.c125_iteration",
    "Glum.c125_quadratic",
    "Glum.c125_stops",
    "Glum.c125_builtin"
   ],
   "note": "exact arithmetic; linear solver assumed to solve regular systems"
  },
  {
   "property": "C126",
   "status": "proved",
   "theorems": [
    "Glum.c126_equal",
    "Glum.c126_exchange",
    "Glum.c126_fit",
    "Glum.c126_similar",
    "Glum.c126_logistic",
    "Glum.c126_least_squares"
   ],
   "note": "exact arithmetic; the fit theorem is for IRLS solvers without step_size_tol and for coefficients within the bounds"
  },
  {
   "property": "C127",
   "status": "proved",
   "theorems": [
    "Glum.c127_equation",
    "Glum.c127_fit_optimal",
    "Glum.c127_between",
    "Glum.c127_segment_mean",
    "Glum.c127_credibility_formula",
    "Glum.c127_fit_mean",
    "Glum.c127_fit_gamma"
   ],
   "note": "exact arithmetic; IRLS solvers without step_size_tol"
  },
  {
   "property": "C128",
   "status": "proved",
   "theorems": [
    "Glum.c128_zero",
    "Glum.c128_zero_ls",
    "Glum.c128_stale",
    "Glum.c128_zero_better",
    "Glum.c128_stale_warns"
   ],
   "note": "exact arithmetic: tabmat's standard deviation of a constant column is exactly 0. The fate of a nonzero start without ridge penalty is part of the statement (finding F55). irls-ls: the linear solver is assumed to solve a decoupled equation h d = 0 by d = 0"
  },
  {
   "property": "C129",
   "status": "proved",
   "theorems": [
    "Glum.c129_deviance",
    "Glum.c129_solutions",
    "Glum.c129_fits",
    "Glum.c129_power",
    "Glum.c129_theta",
    "Glum.c129_families",
    "Glum.c129_tweedie_limit",
    "Glum.c129_zero_response",
    "Glum.c129_normal_limit",
    "Glum.c129_nb_limit",
    "Glum.c129_loglik"
   ],
   "note": "The general formula of the code is undefined at the powers 1 and 2; near them it cancels badly in floating point, which is not modelled here (exact reals). Identity and logit links have one compiled family each, so there is nothing to vary."
  },
  {
   "property": "C130",
   "status": "proved",
   "theorems": [
    "Glum.c130_least_penalty",
    "Glum.c130_direction",
    "Glum.c130_balance",
    "Glum.c130_solution_balance",
    "Glum.c130_ridge",
    "Glum.c130_lasso",
    "Glum.c130_two_sets",
    "Glum.c130_fit_along",
    "Glum.c130_fit_balance",
    "Glum.c130_fit_ridge"
   ],
   "note": "The sum of the coefficients is zero only if the penalty scales of the levels agree: with scale_predictors=True the penalty is on standardised coefficients, and the weighted sum with the squared column scales is zero instead (c130_solution_balance)."
  },
  {
   "property": "C131",
   "status": "proved",
   "theorems": [
    "Glum.c131_excess",
    "Glum.c131_least",
    "Glum.c131_limit",
    "Glum.c131_divergence",
    "Glum.c131_fits",
    "Glum.c131_dichotomy"
   ],
   "note": "With a pure L1 penalty the least-penalty solution need not be unique, so no such limit is claimed."
  },
  {
   "property": "C132",
   "status": "proved",
   "theorems": [
    "Glum.c132_close",
    "Glum.c132_wald",
    "Glum.c132_score",
    "Glum.c132_transfer",
    "Glum.c132_reports",
    "Glum.c132_fit_wald",
    "Glum.c132_fit_score"
   ],
   "note": "The condition number test of covariance_matrix is assumed to pass at the solution and the fit; the normal and chi-squared distribution functions are assumed continuous."
  },
  {
   "property": "C133",
   "status": "proved",
   "theorems": [
    "Glum.c133_losses",
    "Glum.c133_selects",
    "Glum.c133_selects_the_best",
    "Glum.c133_refit",
    "Glum.c133_coef"
   ],
   "note": "The stored coefficients are assumed to lie within the bounds, as in C90: an arbitrary inner solver need not respect them, the coordinate descent does; all l1 ratios have grids of equal length, as fit requires."
  },
  {
   "property": "C134",
   "status": "proved",
   "theorems": [
    "Glum.c134_continuous",
    "Glum.c134_fine_grids",
    "Glum.c134_computed_paths",
    "Glum.c134_more_alphas"
   ],
   "note": "No held-out prediction of the exact solutions is clipped; min_alpha_ratio is below 1."
  },
  {
   "property": "C135",
   "status": "proved",
   "theorems": [
    "Glum.c135_loglik",
    "Glum.c135_never_undershoots",
    "Glum.c135_criteria",
    "Glum.c135_ranking",
    "Glum.c135_threshold_matters"
   ],
   "note": "Predictions of the solution are inside the range of means; for Tweedie powers between 1 and 2 the truncated normalising series is assumed continuous in the dispersion at the estimated dispersion."
  },
  {
   "property": "C136",
   "status": "proved",
   "theorems": [
    "Glum.c136_solution",
    "Glum.c136_reports",
    "Glum.c136_wald"
   ],
   "note": "The covariance matrix exists at the solution, whose predictions are not clipped; alpha=0 (a penalty sees the coding, c124_ridge_sees_coding)."
  },
  {
   "property": "C137",
   "status": "proved",
   "theorems": [
    "Glum.c137_drop",
    "Glum.c137_unique",
    "Glum.c137_regular",
    "Glum.c137_fits",
    "Glum.c137_screen",
    "Glum.c137_screen_fits"
   ],
   "note": "Zero is admissible for the dropped columns; the converse is for columns without ridge coupling with the others."
  },
  {
   "property": "C138",
   "status": "proved",
   "theorems": [
    "Glum.c138_solution",
    "Glum.c138_free",
    "Glum.c138_fits",
    "Glum.c138_fit_scores"
   ],
   "note": "Exact arithmetic; the pairs of family and link whose loss is convex."
  },
  {
   "property": "C139",
   "status": "proved",
   "theorems": [
    "Glum.c139_narrow",
    "Glum.c139_wide",
    "Glum.c139_fits"
   ],
   "note": "Exact arithmetic."
  },
  {
   "property": "C140",
   "status": "proved",
   "theorems": [
    "Glum.c140_zero",
    "Glum.c140_logistic",
    "Glum.c140_least_squares",
    "Glum.c140_fits"
   ],
   "note": "Exact arithmetic. The threshold is on the scale of the penalty (scale_predictors included)."
  },
  {
   "property": "C141",
   "status": "proved",
   "theorems": [
    "Glum.c141_solutions",
    "Glum.c141_fits",
    "Glum.c141_twice",
    "Glum.c141_twice_tame",
    "Glum.c141_unpenalised"
   ],
   "note": "Exact arithmetic. For the fits, the set of solutions is bounded or there is neither penalty nor bound (as in C124)."
  }
 ]
}