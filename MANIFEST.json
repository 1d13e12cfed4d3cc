{"claims": [
 {"property": "C01", "status": "proved", "theorems": ["Coreax.C01_atleast_2d", "Coreax.C01_data_init", "Coreax.C01_supervised_init", "Coreax.C01_as_data"], "note": ""},
 {"property": "C02", "status": "proved", "theorems": ["Coreax.C02_normalize", "Coreax.C02_normalize_scale", "Coreax.C02_normalize_idempotent", "Coreax.C02_normalize_zero", "Coreax.C02_normalize_cancelling", "Coreax.C02_normalize_nonneg"], "note": ""},
 {"property": "C03", "status": "proved", "theorems": ["Coreax.C03_gather_rows", "Coreax.C03_getitem_aligned", "Coreax.C03_getitem_getitem", "Coreax.C03_getitem_id", "Coreax.C03_asarray_getitem"], "note": ""},
 {"property": "C04", "status": "proved", "theorems": ["Coreax.C04_coresubset_init", "Coreax.C04_coresubset_build", "Coreax.C04_pseudo_build", "Coreax.C04_points_are_rows", "Coreax.C04_solve_weights", "Coreax.C04_compute_metric", "Coreax.C04_solve_weights_idem", "Coreax.C04_pseudo_solve_weights"], "note": ""},
 {"property": "C05", "status": "proved", "theorems": ["Coreax.C05_mean_axis1", "Coreax.C05_mean_axis0", "Coreax.C05_mean_axis0_swaps", "Coreax.C05_mean_none", "Coreax.C05_mean_zero_weights", "Coreax.C05_block_size_irrelevant", "Coreax.C05_mean_errors", "Coreax.C05_gramian_row_mean"], "note": ""},
 {"property": "C06", "status": "proved", "theorems": ["Coreax.C06_padding_none", "Coreax.C06_padding_axis1", "Coreax.C06_padding_gramian", "Coreax.C06_weight_scale"], "note": ""},
 {"property": "C07", "status": "proved", "theorems": ["Coreax.C07_squared", "Coreax.C07_compute", "Coreax.C07_rkhs_distance", "Coreax.C07_feature_map_exists", "Coreax.C07_nonneg", "Coreax.C07_self", "Coreax.C07_symm", "Coreax.C07_triangle", "Coreax.C07_depends_on_measure", "Coreax.C07_reorder", "Coreax.C07_padding", "Coreax.C07_split", "Coreax.C07_weight_scale", "Coreax.C07_errors"], "note": ""},
 {"property": "C08", "status": "proved", "theorems": ["Coreax.C08_psd", "Coreax.C08_gram_nonneg", "Coreax.C08_check_iff", "Coreax.C08_locally_periodic", "Coreax.C08_symmetric", "Coreax.C08_symmetric_gradients", "Coreax.C08_periodic_not_psd", "Coreax.C08_poisson_not_psd", "Coreax.C08_add_operator", "Coreax.C08_mul_operator", "Coreax.C08_pow_operator", "Coreax.C08_rejections"], "note": ""},
 {"property": "C09", "status": "proved", "theorems": ["Coreax.C09_gradients", "Coreax.C09_partial_derivatives", "Coreax.C09_poisson_multidim"], "note": ""},
 {"property": "C10", "status": "proved", "theorems": ["Coreax.C10_divergence", "Coreax.C10_periodic_error", "Coreax.C10_periodic_wrong", "Coreax.C10_power_one_nan", "Coreax.C10_power_finite", "Coreax.C10_shapes", "Coreax.C10_scaled_shape"], "note": ""},
 {"property": "C11", "status": "proved", "theorems": ["Coreax.C11_refine_valid", "Coreax.C11_reduce_valid", "Coreax.C11_reduce_too_large", "Coreax.C11_duplicates_when_too_few", "Coreax.C11_zero_weight_when_too_few", "Coreax.C11_refine_oversized"], "note": "Positive part under the stated count of positive-weight points; the C11_*_when_too_few and C11_refine_oversized theorems are concrete witnesses that the hypotheses are needed."},
 {"property": "C12", "status": "proved", "theorems": ["Coreax.C12_refine_greedy", "Coreax.C12_reduce_greedy", "Coreax.C12_reduce_determined", "Coreax.C12_refine_weighted_differs", "Coreax.C12_step_minimises_mmd"], "note": "Greedy step for uniformly weighted initial coresets; C12_refine_weighted_differs shows that non-uniform weights break it in the shipped code."},
 {"property": "C13", "status": "proved", "theorems": ["Coreax.C13_herding_padding", "Coreax.C13_stein_padding", "Coreax.C13_stein_regularised_depends_on_density"], "note": "Herding and unregularised Stein thinning."},
 {"property": "C14", "status": "proved", "theorems": ["Coreax.C14_refine_scatter_order_matters", "Coreax.C14_state_reuse", "Coreax.C14_state_transfer", "Coreax.C14_block_size", "Coreax.C14_reduce_scatter_order", "Coreax.C14_weight_scale", "Coreax.C14_iterative", "Coreax.C14_iterative_one"], "note": ""},
 {"property": "C15", "status": "proved", "theorems": ["Coreax.C15_refine_valid", "Coreax.C15_refine_greedy", "Coreax.C15_reduce_greedy", "Coreax.C15_reduce_too_large", "Coreax.C15_reduce_determined", "Coreax.C15_block_size", "Coreax.C15_weights_only_mask"], "note": ""},
 {"property": "C16", "status": "proved", "theorems": ["Coreax.C16_distinct", "Coreax.C16_error_iff", "Coreax.C16_residual", "Coreax.C16_nystrom", "Coreax.C16_nystrom_unique"], "note": ""},
 {"property": "C17", "status": "proved", "theorems": ["Coreax.C17_sample", "Coreax.C17_support", "Coreax.C17_error_iff", "Coreax.C17_size_check"], "note": ""},
 {"property": "C18", "status": "proved", "theorems": ["Coreax.C18_error_iff", "Coreax.C18_state", "Coreax.C18_range", "Coreax.C18_distinct", "Coreax.C18_error_defined", "Coreax.C18_optimal", "Coreax.C18_descent", "Coreax.C18_unique_fails", "Coreax.C18_padding_selected", "Coreax.C18_zero_batch", "Coreax.C18_nan_repeats"], "note": ""},
 {"property": "C19", "status": "proved", "theorems": ["Coreax.C19_half_pairs", "Coreax.C19_half_partition", "Coreax.C19_swap_rule", "Coreax.C19_duplicate_stops_swapping", "Coreax.C19_balance", "Coreax.C19_partition", "Coreax.C19_candidates", "Coreax.C19_depth"], "note": ""},
 {"property": "C20", "status": "proved", "theorems": ["Coreax.C20_choose", "Coreax.C20_reduce_valid", "Coreax.C20_reduce_best", "Coreax.C20_reduce_error"], "note": ""},
 {"property": "C21", "status": "proved", "theorems": ["Coreax.C21_valid_at", "Coreax.C21_error_at", "Coreax.C21_valid", "Coreax.C21_error"], "note": ""},
 {"property": "C22", "status": "proved", "theorems": ["Coreax.C22_valid", "Coreax.C22_enough_rows", "Coreax.C22_herding_base", "Coreax.C22_stein_base", "Coreax.C22_padding_repeats", "Coreax.C22_padding_duplicates"], "note": "Valid indices under the stated condition on first-round padding; C22_padding_repeats and C22_padding_duplicates show that the condition is needed. The spatial tree enters by contract (its index array is a rearrangement)."},
 {"property": "C23", "status": "proved", "theorems": ["Coreax.C23_check_init", "Coreax.C23_partition", "Coreax.C23_shrink", "Coreax.C23_documented_rate_fails", "Coreax.C23_terminates", "Coreax.C23_never_succeeds", "Coreax.C23_diverges", "Coreax.C23_raises"], "note": "Termination with a logarithmic bound for coreset_size <= leaf_size//2; otherwise, for more than leaf_size rows, failure or divergence for every base solver."},
 {"property": "C24", "status": "proved", "theorems": ["Coreax.C24_caratheodory", "Coreax.C24_tree_at", "Coreax.C24_tree"], "note": ""},
 {"property": "C25", "status": "proved", "theorems": ["Coreax.C25_null_basis", "Coreax.C25_support", "Coreax.C25_progress", "Coreax.C25_cutoff", "Coreax.C25_zero_rcond", "Coreax.C25_relative_rcond"], "note": ""},
 {"property": "C26", "status": "proved", "theorems": ["Coreax.C26_modes", "Coreax.C26_caratheodory", "Coreax.C26_check_init", "Coreax.C26_tree_at", "Coreax.C26_tree"], "note": ""},
 {"property": "C27", "status": "proved", "theorems": ["Coreax.C27_padding_index", "Coreax.C27_prepare", "Coreax.C27_levels_at", "Coreax.C27_tree_at", "Coreax.C27_levels", "Coreax.C27_tree"], "note": ""},
 {"property": "C28", "status": "proved", "theorems": ["Coreax.C28_colinearize", "Coreax.C28_colinearize_id"], "note": ""},
 {"property": "C29", "status": "proved", "theorems": ["Coreax.C29_simplex", "Coreax.C29_feasible_unchanged", "Coreax.C29_all_nonpositive_nan", "Coreax.C29_nan", "Coreax.C29_system", "Coreax.C29_ignores_weights", "Coreax.C29_optimal", "Coreax.C29_mmd_optimal"], "note": ""},
 {"property": "C30", "status": "proved", "theorems": ["Coreax.C30_pythagoras", "Coreax.C30_optimal", "Coreax.C30_metric_not_optimal", "Coreax.C30_weighted_dataset_not_optimal"], "note": ""},
 {"property": "C31", "status": "proved", "theorems": ["Coreax.C31_spec_optimal", "Coreax.C31_minimal_exact", "Coreax.C31_sign", "Coreax.C31_block", "Coreax.C31_default_rcond", "Coreax.C31_randomised", "Coreax.C31_stack", "Coreax.C31_rcond_check", "Coreax.C31_check", "Coreax.C31_negative_discarded", "Coreax.C31_zero_nan"], "note": ""},
 {"property": "C32", "status": "proved", "theorems": ["Coreax.C32_check_init", "Coreax.C32_feasible", "Coreax.C32_monte_carlo_exact", "Coreax.C32_monte_carlo_full", "Coreax.C32_monte_carlo_single", "Coreax.C32_nystrom_subset_mean", "Coreax.C32_nystrom_full", "Coreax.C32_annchor_exact", "Coreax.C32_annchor_anchors", "Coreax.C32_monte_carlo_all_points_inexact", "Coreax.C32_nystrom_not_estimator", "Coreax.C32_annchor_negative_kernel"], "note": ""},
 {"property": "C33", "status": "proved", "theorems": ["Coreax.C33_squared", "Coreax.C33_compute", "Coreax.C33_tensor_psd", "Coreax.C33_laws", "Coreax.C33_triangle"], "note": ""},
 {"property": "C34", "status": "proved", "theorems": ["Coreax.C34_well_posed", "Coreax.C34_definition", "Coreax.C34_errors", "Coreax.C34_self", "Coreax.C34_default_weighting", "Coreax.C34_symm", "Coreax.C34_ignores_weights", "Coreax.C34_reorder", "Coreax.C34_default_not_symmetric"], "note": ""},
 {"property": "C35", "status": "proved", "theorems": ["Coreax.C35_langevin", "Coreax.C35_langevin_unique", "Coreax.C35_symmetric", "Coreax.C35_psd", "Coreax.C35_ksd_value", "Coreax.C35_ksd_norm", "Coreax.C35_ksd_nonneg_or_error", "Coreax.C35_ksd_of_kernel", "Coreax.C35_laplacian_negative", "Coreax.C35_convert", "Coreax.C35_convert_idempotent"], "note": ""},
 {"property": "C36", "status": "proved", "theorems": ["Coreax.C36_tree_leaves_repeat", "Coreax.C36_tree_leaves_repeat_length", "Coreax.C36_tree_zero_pad", "Coreax.C36_zero_pad", "Coreax.C36_pairwise", "Coreax.C36_vector_conventions", "Coreax.C36_threshold_fin", "Coreax.C36_threshold_special", "Coreax.C36_threshold_laws"], "note": ""},
 {"property": "C37", "status": "proved", "theorems": ["Coreax.C37_rows", "Coreax.C37_full", "Coreax.C37_error_iff"], "note": ""},
 {"property": "C38", "status": "proved", "theorems": ["Coreax.C38_valid_date", "Coreax.C38_order_is_time", "Coreax.C38_every_day", "Coreax.C38_relative_change", "Coreax.C38_compare_means", "Coreax.C38_zero_to_zero", "Coreax.C38_performance_report", "Coreax.C38_familywise", "Coreax.C38_coverage_fails_iff", "Coreax.C38_coverage_tolerance", "Coreax.C38_coverage_report", "Coreax.C38_coverage_nan", "Coreax.C38_coverage_erosion", "Coreax.C38_most_recent", "Coreax.C38_bad_date_aborts", "Coreax.C38_coverage_exit", "Coreax.C38_date_from_filename"], "note": ""},
 {"property": "C39", "status": "proved", "theorems": ["Coreax.C39_check_iff", "Coreax.C39_unchanged", "Coreax.C39_fix_plain", "Coreax.C39_fix_shebang_rejected", "Coreax.C39_fix_shebang_only", "Coreax.C39_fix_shebang_grows", "Coreax.C39_fix_line_ends", "Coreax.C39_exit_code"], "note": ""},
 {"property": "C40", "status": "proved", "theorems": ["Coreax.C40_fresh", "Coreax.C40_disjoint", "Coreax.C40_reuse_differs"], "note": ""},
 {"property": "C41", "status": "proved", "theorems": ["Coreax.C41_herding_refine_descent", "Coreax.C41_iterative_descent", "Coreax.C41_refine_mmd_descent"], "note": ""},
 {"property": "C42", "status": "proved", "theorems": ["Coreax.C42_kde_score", "Coreax.C42_kde_match", "Coreax.C42_kde_empty", "Coreax.C42_kde_rejects"], "note": ""},
 {"property": "C43", "status": "proved", "theorems": ["Coreax.C43_is_median", "Coreax.C43_nan_iff", "Coreax.C43_permutation", "Coreax.C43_translation", "Coreax.C43_scale", "Coreax.C43_zero_iff", "Coreax.C43_kernel_construction"], "note": ""},
 {"property": "C44", "status": "proved", "theorems": ["Coreax.C44_delta_three", "Coreax.C44_delta_range", "Coreax.C44_radicand", "Coreax.C44_nan_deterministic"], "note": ""},
 {"property": "C45", "status": "proved", "theorems": ["Coreax.C45_shown", "Coreax.C45_shown_mono", "Coreax.C45_thousand", "Coreax.C45_format_time", "Coreax.C45_format_time_rounded"], "note": ""},
 {"property": "C46", "status": "proved", "theorems": ["Coreax.C46_abort_iff", "Coreax.C46_statistics", "Coreax.C46_total", "Coreax.C46_negative_iff", "Coreax.C46_dict", "Coreax.C46_names", "Coreax.C46_slow_second_runs_abort", "Coreax.C46_welch_inflated", "Coreax.C46_jit", "Coreax.C46_jit_bias"], "note": ""},
 {"property": "C47", "status": "proved", "theorems": ["Coreax.C47_softmax_dichotomy", "Coreax.C47_gibbs", "Coreax.C47_low_temperature", "Coreax.C47_zero_temperature", "Coreax.C47_negative_temperature", "Coreax.C47_draw_contract", "Coreax.C47_zero_weight_blind", "Coreax.C47_blind_to_data", "Coreax.C47_zero_weight_repeats"], "note": ""},
 {"property": "C48", "status": "proved", "theorems": ["Coreax.C48_herding_rate", "Coreax.C48_herding_rate_unique", "Coreax.C48_iterative_rate", "Coreax.C48_random_sampling", "Coreax.C48_beats_random", "Coreax.C48_full_size", "Coreax.C48_unique_weighted_no_rate", "Coreax.C48_mmd_compute"], "note": ""},
 {"property": "C49", "status": "proved", "theorems": ["Coreax.C49_ksd_compute", "Coreax.C49_stein_rate", "Coreax.C49_stein_rate_unique"], "note": ""},
 {"property": "C50", "status": "proved", "theorems": ["Coreax.C50_first_pair", "Coreax.C50_key_reuse", "Coreax.C50_expected_balance", "Coreax.C50_tail", "Coreax.C50_integration_error", "Coreax.C50_unbiased", "Coreax.C50_reduce_half"], "note": ""},
 {"property": "C51", "status": "proved", "theorems": ["Coreax.C51_standard_loss", "Coreax.C51_analytic_loss", "Coreax.C51_standard_minimiser", "Coreax.C51_analytic_same", "Coreax.C51_analytic_minimiser", "Coreax.C51_network", "Coreax.C51_network_regular", "Coreax.C51_generators", "Coreax.C51_uniform_third"], "note": ""},
 {"property": "C52", "status": "proved", "theorems": ["Coreax.C52_mixture_score", "Coreax.C52_expected_step", "Coreax.C52_noise_mixture", "Coreax.C52_noise_single", "Coreax.C52_check_init", "Coreax.C52_loss_value", "Coreax.C52_empty_batch", "Coreax.C52_minibatch", "Coreax.C52_noise_translation", "Coreax.C52_training_run", "Coreax.C52_zero_epochs"], "note": ""},
 {"property": "C53", "status": "proved", "theorems": ["Coreax.C53_best_rank", "Coreax.C53_rank", "Coreax.C53_means", "Coreax.C53_expected_error"], "note": ""},
 {"property": "C54", "status": "proved", "theorems": ["Coreax.C54_always_stein", "Coreax.C54_score_ignored", "Coreax.C54_score_laplace_only", "Coreax.C54_first_row", "Coreax.C54_multiplicity", "Coreax.C54_two_values", "Coreax.C54_documented_differs", "Coreax.C54_default_lambda", "Coreax.C54_lambda_product", "Coreax.C54_laplace_affine", "Coreax.C54_gaussian_scores"], "note": ""},
 {"property": "C55", "status": "proved", "theorems": ["Coreax.C55_herding_rejects", "Coreax.C55_herding_unsupervised", "Coreax.C55_recombination_rejects", "Coreax.C55_stein_rejects", "Coreax.C55_ksd_value", "Coreax.C55_thinning_rejects", "Coreax.C55_unsupervised_same", "Coreax.C55_accepted"], "note": ""},
 {"property": "C56", "status": "proved", "theorems": ["Coreax.C56_square_root", "Coreax.C56_valid", "Coreax.C56_wrong_dim", "Coreax.C56_half_scale", "Coreax.C56_thinning_scale", "Coreax.C56_compress_scale", "Coreax.C56_dim_harmless"], "note": ""},
 {"property": "C57", "status": "proved", "theorems": ["Coreax.C57_weighted", "Coreax.C57_uniform", "Coreax.C57_unique", "Coreax.C57_unique_all", "Coreax.C57_tail"], "note": ""},
 {"property": "C58", "status": "proved", "theorems": ["Coreax.C58_error", "Coreax.C58_bias", "Coreax.C58_padding", "Coreax.C58_herding_base", "Coreax.C58_herding", "Coreax.C58_weights_lost"], "note": ""},
 {"property": "C59", "status": "proved", "theorems": ["Coreax.C59_constant_number", "Coreax.C59_seed_gives_nan", "Coreax.C59_same_keys", "Coreax.C59_candidates", "Coreax.C59_thinning_ignores", "Coreax.C59_compress_ignores"], "note": ""},
 {"property": "C60", "status": "proved", "theorems": ["Coreax.C60_averages", "Coreax.C60_average_nan", "Coreax.C60_bold", "Coreax.C60_bold_none", "Coreax.C60_statistics", "Coreax.C60_statistics_total"], "note": ""},
 {"property": "C61", "status": "proved", "theorems": ["Coreax.C61_train_epoch", "Coreax.C61_zero_division", "Coreax.C61_accuracy", "Coreax.C61_batch_size", "Coreax.C61_early_stopping", "Coreax.C61_reported_best"], "note": ""},
 {"property": "C62", "status": "proved", "theorems": ["Coreax.C62_powers", "Coreax.C62_constant", "Coreax.C62_count", "Coreax.C62_test_functions", "Coreax.C62_product_formula", "Coreax.C62_recombined", "Coreax.C62_degree_zero"], "note": ""},
 {"property": "C63", "status": "proved", "theorems": ["Coreax.C63_given_means", "Coreax.C63_approx_kernel", "Coreax.C63_error", "Coreax.C63_error_unique", "Coreax.C63_error_stays", "Coreax.C63_nystrom", "Coreax.C63_nystrom_limit", "Coreax.C63_nystrom_expected", "Coreax.C63_nystrom_expected_unit"], "note": ""},
 {"property": "C64", "status": "proved", "theorems": ["Coreax.C64_compare", "Coreax.C64_never_worse", "Coreax.C64_more_points", "Coreax.C64_covering", "Coreax.C64_herding", "Coreax.C64_sbq", "Coreax.C64_metric", "Coreax.C64_weighted_harm", "Coreax.C64_sbq_harm"], "note": ""},
 {"property": "C65", "status": "proved", "theorems": ["Coreax.C65_mean", "Coreax.C65_block_sizes", "Coreax.C65_mmd", "Coreax.C65_equal", "Coreax.C65_self", "Coreax.C65_root_of_error"], "note": ""},
 {"property": "C66", "status": "proved", "theorems": ["Coreax.C66_nearly_greedy", "Coreax.C66_too_large", "Coreax.C66_rate", "Coreax.C66_rate_unique", "Coreax.C66_same_points", "Coreax.C66_error_size"], "note": ""},
 {"property": "C67", "status": "proved", "theorems": ["Coreax.C67_construct", "Coreax.C67_failure_probability", "Coreax.C67_oversampling", "Coreax.C67_temperatures", "Coreax.C67_kernel", "Coreax.C67_kernel_draw", "Coreax.C67_terminates", "Coreax.C67_iterative_not_worse", "Coreax.C67_mapreduce_rate", "Coreax.C67_iterative_valid", "Coreax.C67_zero_weight_row", "Coreax.C67_padding_blind", "Coreax.C67_david_size", "Coreax.C67_david_oversampling"], "note": ""},
 {"property": "C68", "status": "proved", "theorems": ["Coreax.C68_herding", "Coreax.C68_stein", "Coreax.C68_mmd", "Coreax.C68_rpcholesky", "Coreax.C68_thinning", "Coreax.C68_units", "Coreax.C68_units_check", "Coreax.C68_translation", "Coreax.C68_laplacian_units", "Coreax.C68_not_a_length", "Coreax.C68_median", "Coreax.C68_pipeline", "Coreax.C68_pipeline_thinning", "Coreax.C68_repeats", "Coreax.C68_row_order", "Coreax.C68_ties_matter"], "note": ""},
 {"property": "C69", "status": "proved", "theorems": ["Coreax.C69_error", "Coreax.C69_tolerance", "Coreax.C69_mass_lost", "Coreax.C69_tree_error_at", "Coreax.C69_tree_error"], "note": ""},
 {"property": "C70", "status": "proved", "theorems": ["Coreax.C70_levels", "Coreax.C70_halving", "Coreax.C70_diameter", "Coreax.C70_positions", "Coreax.C70_same_key"], "note": ""},
 {"property": "C71", "status": "proved", "theorems": ["Coreax.C71_fast_rate", "Coreax.C71_fast_rate_unique", "Coreax.C71_features", "Coreax.C71_condition"], "note": ""},
 {"property": "C72", "status": "proved", "theorems": ["Coreax.C72_halvings", "Coreax.C72_halvings_fit", "Coreax.C72_kt_contract", "Coreax.C72_half_unused", "Coreax.C72_halvings_power", "Coreax.C72_power", "Coreax.C72_compress", "Coreax.C72_leaves", "Coreax.C72_tree_depth", "Coreax.C72_tree", "Coreax.C72_thirteen", "Coreax.C72_thirteen_unused", "Coreax.C72_extra_level"], "note": ""},
 {"property": "C73", "status": "proved", "theorems": ["Coreax.C73_skew_bounds", "Coreax.C73_run", "Coreax.C73_law", "Coreax.C73_expected_rate", "Coreax.C73_equal_weights", "Coreax.C73_expected_rate_unique", "Coreax.C73_hot_bias"], "note": ""},
 {"property": "C74", "status": "proved", "theorems": ["Coreax.C74_refine_run", "Coreax.C74_iterative_run", "Coreax.C74_law", "Coreax.C74_expected_unique", "Coreax.C74_expected", "Coreax.C74_refine_expected", "Coreax.C74_not_probabilistic", "Coreax.C74_schedule_length", "Coreax.C74_no_schedule", "Coreax.C74_no_schedule_not_standard", "Coreax.C74_experiment", "Coreax.C74_experiment_standard"], "note": ""},
 {"property": "C75", "status": "proved", "theorems": ["Coreax.C75_best_weights", "Coreax.C75_invertible", "Coreax.C75_sbq", "Coreax.C75_regularised", "Coreax.C75_expected", "Coreax.C75_integration"], "note": ""},
 {"property": "C76", "status": "proved", "theorems": ["Coreax.C76_single", "Coreax.C76_error_iff", "Coreax.C76_default", "Coreax.C76_mixed", "Coreax.C76_one_row", "Coreax.C76_wrong_choice"], "note": ""},
 {"property": "C77", "status": "proved", "theorems": ["Coreax.C77_documented", "Coreax.C77_result"], "note": ""},
 {"property": "C78", "status": "proved", "theorems": ["Coreax.C78_rmse", "Coreax.C78_rows", "Coreax.C78_mean_outside", "Coreax.C78_gamma", "Coreax.C78_units"], "note": ""},
 {"property": "C79", "status": "proved", "theorems": ["Coreax.C79_pixels", "Coreax.C79_sizes", "Coreax.C79_length_scale", "Coreax.C79_downsample", "Coreax.C79_downsample_zero", "Coreax.C79_downsample_one", "Coreax.C79_marker_sizes", "Coreax.C79_marker_nan"], "note": ""},
 {"property": "C80", "status": "proved", "theorems": ["Coreax.C80_mass", "Coreax.C80_normalised_iff", "Coreax.C80_estimate_mass", "Coreax.C80_score", "Coreax.C80_comparison"], "note": ""},
 {"property": "C81", "status": "proved", "theorems": ["Coreax.C81_stein_identity", "Coreax.C81_ksd_is_mmd", "Coreax.C81_control_variate", "Coreax.C81_kde", "Coreax.C81_expected", "Coreax.C81_self"], "note": ""},
 {"property": "C82", "status": "proved", "theorems": ["Coreax.C82_exit", "Coreax.C82_messages", "Coreax.C82_line_bound", "Coreax.C82_first_chunk", "Coreax.C82_chunking"], "note": ""},
 {"property": "C83", "status": "proved", "theorems": ["Coreax.C83_transport", "Coreax.C83_move", "Coreax.C83_weights", "Coreax.C83_rounded_data", "Coreax.C83_wasserstein", "Coreax.C83_herding", "Coreax.C83_sharp", "Coreax.C83_rough"], "note": ""},
 {"property": "C84", "status": "proved", "theorems": ["Coreax.C84_index", "Coreax.C84_outputs", "Coreax.C84_distinct", "Coreax.C84_spread", "Coreax.C84_main", "Coreax.C84_short", "Coreax.C84_too_many", "Coreax.C84_still", "Coreax.C84_still_picture", "Coreax.C84_map_reduce", "Coreax.C84_selection"], "note": ""},
 {"property": "C85", "status": "proved", "theorems": ["Coreax.C85_report", "Coreax.C85_order", "Coreax.C85_no_change", "Coreax.C85_error", "Coreax.C85_first_run"], "note": ""},
 {"property": "C86", "status": "proved", "theorems": ["Coreax.C86_dominating", "Coreax.C86_basic", "Coreax.C86_composite", "Coreax.C86_weighted", "Coreax.C86_approximate", "Coreax.C86_stein", "Coreax.C86_stein_kde"], "note": ""},
 {"property": "C87", "status": "proved", "theorems": ["Coreax.C87_strict", "Coreax.C87_mmd_zero_iff", "Coreax.C87_coreset", "Coreax.C87_gram", "Coreax.C87_approximation", "Coreax.C87_rank", "Coreax.C87_pivots", "Coreax.C87_linear", "Coreax.C87_polynomial", "Coreax.C87_periodic"], "note": ""},
 {"property": "C88", "status": "proved", "theorems": ["Coreax.C88_expected", "Coreax.C88_consistent", "Coreax.C88_coreset", "Coreax.C88_integral", "Coreax.C88_biased", "Coreax.C88_same", "Coreax.C88_herding", "Coreax.C88_kernels"], "note": ""},
 {"property": "C89", "status": "proved", "theorems": ["Coreax.C89_value", "Coreax.C89_arrays", "Coreax.C89_arrays_row", "Coreax.C89_memory", "Coreax.C89_memory_unbounded"], "note": ""},
 {"property": "C90", "status": "proved", "theorems": ["Coreax.C90_strict", "Coreax.C90_ksd_pos", "Coreax.C90_laplace", "Coreax.C90_floor", "Coreax.C90_mmd", "Coreax.C90_thinning", "Coreax.C90_linear_zero"], "note": ""},
 {"property": "C91", "status": "proved", "theorems": ["Coreax.C91_row", "Coreax.C91_table", "Coreax.C91_ksd_rises"], "note": ""},
 {"property": "C92", "status": "proved", "theorems": ["Coreax.C92_exists", "Coreax.C92_mean", "Coreax.C92_herding", "Coreax.C92_stein", "Coreax.C92_mmd", "Coreax.C92_jmmd", "Coreax.C92_ksd", "Coreax.C92_sampling", "Coreax.C92_unique_differs", "Coreax.C92_correction_differs", "Coreax.C92_median_differs", "Coreax.C92_weights_differ"], "note": ""},
 {"property": "C93", "status": "proved", "theorems": ["Coreax.C93_herding", "Coreax.C93_stein", "Coreax.C93_stein_default", "Coreax.C93_rpcholesky", "Coreax.C93_weighted", "Coreax.C93_not_monotone"], "note": ""},
 {"property": "C94", "status": "proved", "theorems": ["Coreax.C94_mmd", "Coreax.C94_sharp", "Coreax.C94_herding", "Coreax.C94_unbounded", "Coreax.C94_ksd", "Coreax.C94_stein", "Coreax.C94_median", "Coreax.C94_median_breakdown", "Coreax.C94_median_collapse", "Coreax.C94_herding_linear"], "note": ""},
 {"property": "C95", "status": "proved", "theorems": ["Coreax.C95_averages", "Coreax.C95_features", "Coreax.C95_attained", "Coreax.C95_ksd", "Coreax.C95_herding", "Coreax.C95_linear", "Coreax.C95_jump"], "note": ""},
 {"property": "C96", "status": "proved", "theorems": ["Coreax.C96_all", "Coreax.C96_too_many", "Coreax.C96_all_exact", "Coreax.C96_weights_lost", "Coreax.C96_mmd_weights", "Coreax.C96_sbq_weights", "Coreax.C96_one_herding", "Coreax.C96_one_worst", "Coreax.C96_one_stein"], "note": ""},
 {"property": "C97", "status": "proved", "theorems": ["Coreax.C97_mmd", "Coreax.C97_herding", "Coreax.C97_stein", "Coreax.C97_mmd_weights", "Coreax.C97_not_sbq", "Coreax.C97_not_ksd", "Coreax.C97_joint_offset", "Coreax.C97_swapped", "Coreax.C97_products"], "note": ""},
 {"property": "C98", "status": "proved", "theorems": ["Coreax.C98_power_one", "Coreax.C98_mean_numbers", "Coreax.C98_mean_nan", "Coreax.C98_padding", "Coreax.C98_reduce_numbers", "Coreax.C98_herding", "Coreax.C98_stein", "Coreax.C98_metrics_numbers", "Coreax.C98_mmd_nan", "Coreax.C98_ksd_nan", "Coreax.C98_rough", "Coreax.C98_rough_stein", "Coreax.C98_rough_ksd", "Coreax.C98_rough_thinning", "Coreax.C98_regular"], "note": ""},
 {"property": "C99", "status": "proved", "theorems": ["Coreax.C99_two_scores", "Coreax.C99_uniform", "Coreax.C99_stein_thinning", "Coreax.C99_wrong_score", "Coreax.C99_sample", "Coreax.C99_sum", "Coreax.C99_constant", "Coreax.C99_add_constant", "Coreax.C99_sharp"], "note": ""},
 {"property": "C100", "status": "proved", "theorems": ["Coreax.C100_mean", "Coreax.C100_mmd", "Coreax.C100_ksd", "Coreax.C100_herding", "Coreax.C100_herding_unique", "Coreax.C100_stein", "Coreax.C100_same_points", "Coreax.C100_same_points_stein", "Coreax.C100_weights", "Coreax.C100_jump", "Coreax.C100_length_scale", "Coreax.C100_length_scale_mmd"], "note": ""},
 {"property": "C101", "status": "proved", "theorems": ["Coreax.C101_mmd", "Coreax.C101_zero", "Coreax.C101_ksd", "Coreax.C101_linear", "Coreax.C101_polynomial", "Coreax.C101_strict"], "note": ""},
 {"property": "C102", "status": "proved", "theorems": ["Coreax.C102_gap", "Coreax.C102_herding", "Coreax.C102_bias", "Coreax.C102_weights", "Coreax.C102_dominated"], "note": ""},
 {"property": "C103", "status": "proved", "theorems": ["Coreax.C103_accepts", "Coreax.C103_numbers", "Coreax.C103_nan", "Coreax.C103_nan_use", "Coreax.C103_median", "Coreax.C103_flat", "Coreax.C103_flat_mmd", "Coreax.C103_period_zero", "Coreax.C103_scale_infinite", "Coreax.C103_composite"], "note": ""},
 {"property": "C104", "status": "proved", "theorems": ["Coreax.C104_metrics", "Coreax.C104_zero", "Coreax.C104_shift", "Coreax.C104_accuracy_bound", "Coreax.C104_all_right", "Coreax.C104_margin", "Coreax.C104_uniform"], "note": ""},
 {"property": "C105", "status": "proved", "theorems": ["Coreax.C105_score", "Coreax.C105_blobs_score", "Coreax.C105_zero", "Coreax.C105_logpdf_bounds", "Coreax.C105_regularisation", "Coreax.C105_equal_weights", "Coreax.C105_singular_iff", "Coreax.C105_few_rows", "Coreax.C105_weight_scale"], "note": ""},
 {"property": "C106", "status": "proved", "theorems": ["Coreax.C106_descent", "Coreax.C106_settles", "Coreax.C106_settles_mmd", "Coreax.C106_stop", "Coreax.C106_stein", "Coreax.C106_not_best", "Coreax.C106_several_passes", "Coreax.C106_raises", "Coreax.C106_experiment"], "note": ""},
 {"property": "C107", "status": "proved", "theorems": ["Coreax.C107_settles", "Coreax.C107_reduce_settles", "Coreax.C107_cycles"], "note": ""},
 {"property": "C108", "status": "proved", "theorems": ["Coreax.C108_rpc_numbers", "Coreax.C108_rpc", "Coreax.C108_rpc_data", "Coreax.C108_half_numbers", "Coreax.C108_half", "Coreax.C108_choose", "Coreax.C108_refine", "Coreax.C108_thinning", "Coreax.C108_thinning_numbers"], "note": ""},
 {"property": "C109", "status": "proved", "theorems": ["Coreax.C109_experiment", "Coreax.C109_experiment_still", "Coreax.C109_schedules", "Coreax.C109_video", "Coreax.C109_learners", "Coreax.C109_video_short"], "note": ""},
 {"property": "C110", "status": "proved", "theorems": ["Coreax.C110_refine", "Coreax.C110_reduce", "Coreax.C110_uniform", "Coreax.C110_attracted", "Coreax.C110_numbers"], "note": ""},
 {"property": "C111", "status": "proved", "theorems": ["Coreax.C111_skip", "Coreax.C111_greedy", "Coreax.C111_first", "Coreax.C111_first_unique", "Coreax.C111_density", "Coreax.C111_lambda", "Coreax.C111_default", "Coreax.C111_numbers"], "note": ""},
 {"property": "C112", "status": "proved", "theorems": ["Coreax.C112_rate", "Coreax.C112_rate_unique", "Coreax.C112_concentrates", "Coreax.C112_default"], "note": ""},
 {"property": "C113", "status": "proved", "theorems": ["Coreax.C113_error_size", "Coreax.C113_nearly_greedy", "Coreax.C113_too_large", "Coreax.C113_rate", "Coreax.C113_rate_unique", "Coreax.C113_same_points"], "note": ""},
 {"property": "C114", "status": "proved", "theorems": ["Coreax.C114_mean", "Coreax.C114_block_sizes", "Coreax.C114_ksd", "Coreax.C114_ksd_relative", "Coreax.C114_compare", "Coreax.C114_mmd", "Coreax.C114_root_of_error", "Coreax.C114_failures"], "note": ""},
 {"property": "C115", "status": "proved", "theorems": ["Coreax.C115_kernel", "Coreax.C115_stein", "Coreax.C115_size", "Coreax.C115_ksd"], "note": ""},
 {"property": "C116", "status": "proved", "theorems": ["Coreax.C116_kernel", "Coreax.C116_relative", "Coreax.C116_no_relative", "Coreax.C116_mmd"], "note": ""},
 {"property": "C117", "status": "proved", "theorems": ["Coreax.C117_nearly_greedy", "Coreax.C117_rate", "Coreax.C117_rate_unique", "Coreax.C117_error_size", "Coreax.C117_exponential"], "note": ""},
 {"property": "C118", "status": "proved", "theorems": ["Coreax.C118_value", "Coreax.C118_rate_unique", "Coreax.C118_rate", "Coreax.C118_reported"], "note": ""},
 {"property": "C119", "status": "proved", "theorems": ["Coreax.C119_kernel", "Coreax.C119_mmd", "Coreax.C119_herding"], "note": ""},
 {"property": "C120", "status": "proved", "theorems": ["Coreax.C120_matern", "Coreax.C120_kernel", "Coreax.C120_mmd", "Coreax.C120_herding"], "note": ""},
 {"property": "C121", "status": "proved", "theorems": ["Coreax.C121_periodic", "Coreax.C121_mmd", "Coreax.C121_locally_periodic", "Coreax.C121_growth", "Coreax.C121_poisson"], "note": ""}
]}
