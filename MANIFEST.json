{"claims": [
 {"property": "C01", "status": "partial", "theorems": ["Verif.C01_log_probability", "Verif.C01_constructor", "Verif.C01_likelihood_exact", "Verif.C01_likelihood_exact_builtin", "Verif.C01_likelihood_exact_over_gaps", "Verif.C01_C02_C03_sho_underdamped_partial", "Verif.C01_sho_truncated_likelihood_wrong", "Verif.C28_scale_likelihood_wrong"], "note": "Exact for every kernel whose noise equals Pinf - A Pinf A^T; false for underdamped SHO whose noise entries are truncated at 1e-14 (negation proved) and for scaled kernels (negation proved)."},
 {"property": "C02", "status": "proved", "theorems": ["Verif.C02_C03_condition", "Verif.C02_condition_succeeds", "Verif.C02_conditioned_mean_exact", "Verif.C02_C03_conditioned_exact_over_gaps", "Verif.C02_C03_conditioned_exact_general"], "note": ""},
 {"property": "C03", "status": "proved", "theorems": ["Verif.C02_C03_condition", "Verif.C03_conditioned_variance_exact", "Verif.C02_C03_conditioned_exact_over_gaps", "Verif.C02_C03_conditioned_exact_general"], "note": ""},
 {"property": "C04", "status": "proved", "theorems": ["Verif.C04_predict", "Verif.C04_prediction_exact"], "note": ""},
 {"property": "C05", "status": "proved", "theorems": ["Verif.C05_predict", "Verif.C05_predict_any", "Verif.C05_predict_at_data"], "note": "C05_predict: package interface, both instantaneous solvers, repeated times. C05_predict_any needs no exactness: oscillators of any damping, any noise, times observed once."},
 {"property": "C20", "status": "partial", "theorems": ["Verif.C20_transition_is_exp_partial", "Verif.C20_sho_window_not_exp"], "note": "Proved for all sums, products and scalings of shipped instantaneous kernels except SHO with quality inside the isclose window around 1/2, where the negation is proved."},
 {"property": "C21", "status": "partial", "theorems": ["Verif.C21_transition_composes", "Verif.C21_integrated_composes", "Verif.C21_integrated_sho_window"], "note": "All kernels, integrated or not, except IntegratedSHO with quality inside the isclose window around 1/2, where the negation is proved."},
 {"property": "C22", "status": "partial", "theorems": ["Verif.C22_noise_is_stationary_partial", "Verif.C22_sho_underdamped_partial", "Verif.C22_noise_zero", "Verif.C22_sho_untruncated", "Verif.C22_sho_truncated"], "note": "Exact except underdamped SHO, which is within the truncation constant; negation proved for small sigma."},
 {"property": "C23", "status": "proved", "theorems": ["Verif.C23_lyapunov"], "note": ""},
 {"property": "C24", "status": "partial", "theorems": ["Verif.C24_exp", "Verif.C24_matern32", "Verif.C24_matern52", "Verif.C24_cosine", "Verif.C24_matern", "Verif.C24_sho", "Verif.C24_sho_window", "Verif.C24_variance", "Verif.C24_sho_doc_formula_wrong"], "note": "Closed forms proved; the formula printed in the SHO docstring for Q > 1/2 is refuted (cos and sin swapped), and inside the isclose window the value is that of Q = 1/2."},
 {"property": "C25", "status": "partial", "theorems": ["Verif.C25_symmetric_partial", "Verif.C25_stationary", "Verif.C25_diagonal", "Verif.C25_integrated_not_symmetric"], "note": "All instantaneous kernels; proved to fail for integrated kernels (the value between a latent point and a later exposure depends on the order)."},
 {"property": "C26", "status": "proved", "theorems": ["Verif.C26_gram_psd"], "note": ""},
 {"property": "C27", "status": "proved", "theorems": ["Verif.C27_sum_evaluate", "Verif.C27_prod_evaluate", "Verif.C27_expression", "Verif.C27_diagonal"], "note": ""},
 {"property": "C28", "status": "partial", "theorems": ["Verif.C28_scalar_multiple_raises", "Verif.C28_scale_evaluate_partial", "Verif.C28_scale_inconsistent", "Verif.C28_scale_likelihood_wrong"], "note": "Multiplying a kernel by a number raises (C28_scalar_multiple_raises); with Scale built directly the covariance function is scaled and the process noise is not, so the likelihood is wrong (negation proved)."},
 {"property": "C29", "status": "partial", "theorems": ["Verif.C29_series", "Verif.C29_truncation_bound", "Verif.C29_periodic", "Verif.C29_bounded", "Verif.C29_deviation_partial", "Verif.C29_auto_order", "Verif.C29_variance_too_small", "Verif.C29_error_bound_wrong", "Verif.C29_error_bound_partial"], "note": "Periodicity, symmetry, bound and a correct deviation bound proved; error_bound() holds for 2/order <= gamma <= 2 and is refuted in general."},
 {"property": "C16", "status": "partial", "theorems": ["Verif.C16_state_covariances_psd", "Verif.C16_variances_nonneg", "Verif.C16_sho_noise_not_psd"], "note": "Proved for kernels with exact process noise; the truncated noise of an underdamped SHO is not positive semidefinite (negation proved)."},
 {"property": "C17", "status": "proved", "theorems": ["Verif.C17_states_shrink", "Verif.C17_variances_le_prior", "Verif.C17_more_data"], "note": ""},
 {"property": "C18", "status": "proved", "theorems": ["Verif.C18_filter_causal", "Verif.C18_integrated_causal", "Verif.C18_prediction_causal", "Verif.C18_prefix_likelihood"], "note": ""},
 {"property": "C19", "status": "proved", "theorems": ["Verif.C19_condition_linear", "Verif.C19_predict_linear"], "note": ""},
 {"property": "C46", "status": "proved", "theorems": ["Verif.C46_total", "Verif.C46_integrated_total", "Verif.C46_finite", "Verif.C46_bottom_occurs"], "note": ""},
 {"property": "C50", "status": "proved", "theorems": ["Verif.C50_time_translation"], "note": ""},
 {"property": "C51", "status": "proved", "theorems": ["Verif.C51_interpolation", "Verif.C51_interpolation_any", "Verif.C51_integrated_interpolation", "Verif.C100_interpolation"], "note": ""},
 {"property": "C06", "status": "partial", "theorems": ["Verif.C06_parallel_filter", "Verif.C06_parallel_likelihood", "Verif.C06_parallel_likelihood_builtin", "Verif.C06_noise_free_repeat", "Verif.C06_constructor", "Verif.C06_log_probability", "Verif.C07_same_answers"], "note": "Equality proved whenever noise variance plus process-noise variance of each datum is positive; for noise-free repeated times the parallel filter solves a zero system although the sequential one does not (proved). Kernels with a one-dimensional state fail in the parallel code, see C30."},
 {"property": "C07", "status": "proved", "theorems": ["Verif.C07_parallel_smoother", "Verif.C07_parallel_smoother_general", "Verif.C07_smoother_systems_posdef", "Verif.C07_parallel_conditioned", "Verif.C07_parallel_prediction", "Verif.C07_condition", "Verif.C07_condition_succeeds", "Verif.C07_predict", "Verif.C07_same_answers"], "note": ""},
 {"property": "C08", "status": "proved", "theorems": ["Verif.C08_filter_schedule", "Verif.C08_smoother_schedule", "Verif.C08_no_singular_system", "Verif.C08_filter_scan_any_order"], "note": ""},
 {"property": "C31", "status": "proved", "theorems": ["Verif.C31_phibar", "Verif.C31_process_noise", "Verif.C31_vanLoan_F3", "Verif.C31_vanLoan_M", "Verif.C31_vanLoan_W"], "note": ""},
 {"property": "C32", "status": "partial", "theorems": ["Verif.C32_transition", "Verif.C32_process_noise", "Verif.C32_shipped_transition", "Verif.C32_shipped_noise", "Verif.C32_sho_noise"], "note": "Exact for any base kernel with exact transition and noise; IntegratedSHO noise up to the 1e-14 cut; the isclose window is excluded (its base block is that of quality 1/2)."},
 {"property": "C33", "status": "proved", "theorems": ["Verif.C33_phibar", "Verif.C33_q12", "Verif.C33_q22"], "note": ""},
 {"property": "C09", "status": "proved", "theorems": ["Verif.C09_integrated_likelihood_exact", "Verif.C09_integrated_likelihood_exact_psd"], "note": ""},
 {"property": "C10", "status": "proved", "theorems": ["Verif.C10_integrated_smoothing_exact", "Verif.C10_conditioned_exact"], "note": ""},
 {"property": "C12", "status": "partial", "theorems": ["Verif.C12_parallel_filter", "Verif.C12_parallel_likelihood", "Verif.C12_parallel_smoother", "Verif.C12_parallel_conditioned", "Verif.C12_parallel_predict", "Verif.C12_likelihood_exact_partial", "Verif.C12_conditioned_exact_partial", "Verif.C12_first_instantaneous_ignored", "Verif.C12_conditioned_refuted", "Verif.C12_likelihood_refuted", "Verif.C11_log_probability", "Verif.C11_condition", "Verif.C58_predict"], "note": "Proved whenever the first event is an exposure start (every exposure of positive length), with exactness of the likelihood and of the conditioned rows following. False otherwise, with proved witnesses: if the first event is the end of a zero-length measurement the parallel solver ignores that datum."},
 {"property": "C13", "status": "proved", "theorems": ["Verif.C13_events_sorted", "Verif.C13_one_start_one_end", "Verif.C13_ends_before_starts", "Verif.C13_start_before_end"], "note": ""},
 {"property": "C14", "status": "proved", "theorems": ["Verif.C14_results_in_input_order", "Verif.C14_parallel_results_in_input_order", "Verif.C14_length"], "note": ""},
 {"property": "C11", "status": "partial", "theorems": ["Verif.C11_likelihood", "Verif.C11_likelihood_on_events", "Verif.C11_conditioned", "Verif.C11_latent", "Verif.C11_log_probability", "Verif.C11_condition"], "note": "Proved for every sum of exported integrated kernels and every schedule without overlap on one instrument; an underdamped IntegratedSHO is covered whenever its noise over the event gaps is not truncated (NoiseOnEvents), the isclose window of SHO is excluded."},
 {"property": "C56", "status": "partial", "theorems": ["Verif.C56_systems_posdef", "Verif.C56_conditioned_partial", "Verif.C56_simultaneous_starts_singular", "Verif.C56_cosine_singular"], "note": "Holds when exposures start at different times and no IntegratedCosine is involved; proved to fail otherwise: the smoother is given a singular system."},
 {"property": "C34", "status": "proved", "theorems": ["Verif.C34_reset", "Verif.C34_reset_observed", "Verif.C34_instantaneous", "Verif.C34_idempotent_commute", "Verif.C34_out_of_range_resets_last"], "note": "For instruments 0..num_insts-1; an index beyond the last instrument is not rejected but resets the last one (proved)."},
 {"property": "C35", "status": "proved", "theorems": ["Verif.C35_observation"], "note": ""},
 {"property": "C30", "status": "partial", "theorems": ["Verif.C30_log_probability_iff_partial", "Verif.C30_constant_fails", "Verif.C30_exp_parallel_fails", "Verif.C30_constant_variance"], "note": "Exactly which kernel trees raise with which solver; Constant raises with every solver and Exp / IntegratedExp with the parallel ones (proved)."},
 {"property": "C37", "status": "partial", "theorems": ["Verif.C37_names", "Verif.C37_distinct_iff", "Verif.C37_collision", "Verif.C37_products_stay_equal"], "note": "The resulting names and exactly when they are distinct; fails when a numbered name collides with an existing one and for equal products (proved)."},
 {"property": "C38", "status": "partial", "theorems": ["Verif.C38_construction_iff", "Verif.C38_sum_partial", "Verif.C38_product_fails"], "note": "Exactly when construction succeeds; always for sums without products; two products whose factors have equal names raise KeyError (proved)."},
 {"property": "C39", "status": "partial", "theorems": ["Verif.C39_means_add_up_partial", "Verif.C39_predictions_add_up_partial", "Verif.C39_product_lost"], "note": "Proved for sums whose components are not products; the mean of a product component is returned as 0 (proved)."},
 {"property": "C40", "status": "partial", "theorems": ["Verif.C40_no_name", "Verif.C40_component_partial", "Verif.C40_predicted_component_partial", "Verif.C40_unknown_name", "Verif.C40_list_is_sum", "Verif.C40_factor_leaks"], "note": "The component mean is the posterior mean of that component, for components that are not products and whose name is not used by a factor of a product; the failures are proved."},
 {"property": "C41", "status": "partial", "theorems": ["Verif.C41_summands", "Verif.C41_all", "Verif.C41_dense_summands", "Verif.C41_dense_all", "Verif.C41_dense_all_refuted"], "note": "Proved for the kernels of smolgp; the copy in kernels/dense.py drops the flag all in its recursion (negation proved)."},
 {"property": "C42", "status": "proved", "theorems": ["Verif.C42_predict_needs_data", "Verif.C42_components_need_data", "Verif.C42_states", "Verif.C42_predict_is_condition_predict", "Verif.C42_conditioned_ignores_data", "Verif.C42_recondition"], "note": ""},
 {"property": "C43", "status": "partial", "theorems": ["Verif.C43_condition_with_test_coordinates_raises", "Verif.C43_format_checked"], "note": "Refuted: the call raises for every GP, data set and test coordinates, so no positive part exists."},
 {"property": "C44", "status": "partial", "theorems": ["Verif.C44_mean_has_no_effect", "Verif.C44_mean_ignored"], "note": "Refuted: the mean function has no effect on likelihood, conditioning or prediction; with the default zero mean the property is C01-C04."},
 {"property": "C45", "status": "partial", "theorems": ["Verif.C45_default_solver", "Verif.C45_times_rejected", "Verif.C45_formats_partial", "Verif.C45_pair_rejected", "Verif.C45_product_unnoticed", "Verif.C45_integrated_constructor", "Verif.C45_pair_prediction_raises"], "note": "The choice and the accepted formats; the documented (t, texp) is rejected and integrated factors of products are not noticed (proved)."},
 {"property": "C52", "status": "partial", "theorems": ["Verif.C52_condition_partial", "Verif.C52_parallel_raises"], "note": "All solvers except the parallel one, for which the default arguments raise (proved)."},
 {"property": "C54", "status": "partial", "theorems": ["Verif.C54_names_kept_partial", "Verif.C54_only_names", "Verif.C54_flag_forgotten", "Verif.C54_renamed_again"], "note": "Kept if distinct; otherwise renamed again, also with use_unique_names=False (proved)."},
 {"property": "C57", "status": "partial", "theorems": ["Verif.C02_condition_succeeds", "Verif.C57_single_point", "Verif.C57_integrated_condition_succeeds", "Verif.C07_condition_succeeds"], "note": "Exactly when condition(y) succeeds with the sequential solver; with a single datum it raises (proved)."},
 {"property": "C15", "status": "proved", "theorems": ["Verif.C15_likelihood", "Verif.C15_conditioned", "Verif.C15_predict", "Verif.C15_parallel", "Verif.C15_likelihood_ties"], "note": "Any kernel, all event times distinct, both integrated solvers; the likelihood of shipped integrated kernels also with ties."},
 {"property": "C53", "status": "partial", "theorems": ["Verif.C53_equal_exposures_partial", "Verif.C53_likelihood", "Verif.C53_refuted"], "note": "False: the instantaneous part is taken at the END of the exposure (exact law proved, with a counterexample); right when all exposures are equally long."},
 {"property": "C55", "status": "partial", "theorems": ["Verif.C55_prediction_law", "Verif.C55_refuted", "Verif.C55_before_the_data", "Verif.C55_own_exposure_half", "Verif.C58_latent_prediction"], "note": "False for delta*>0: the state at the centre is read, so the answer is the integral since the instrument's last start over delta* (law proved), and an arbitrary unit variance over delta*^2 before the data. Right for delta*=0 (C58)."},
 {"property": "C58", "status": "proved", "theorems": ["Verif.C58_latent_prediction", "Verif.C58_prediction_exact", "Verif.C58_predict"], "note": "Sums of integrated Exp, Matern32, Matern52, non-underdamped SHO; exposures of positive length with distinct starts, positive noise; the general form covers any kernel sum with regular systems."},
 {"property": "C36", "status": "proved", "theorems": ["Verif.C36_real", "Verif.C36_nonneg", "Verif.C36_even", "Verif.C36_sum", "Verif.C36_scale", "Verif.C36_defined", "Verif.C36_psd_is_spectrum", "Verif.C36_matern", "Verif.C36_exp", "Verif.C36_matern32", "Verif.C36_matern52", "Verif.C36_sho", "Verif.C36_cosine_zero", "Verif.C36_expSineSquared_zero"], "note": "Damped sums and products: psd is the Fourier transform of the covariance at every frequency. Cosine and ExpSineSquared give 0 away from their spectral lines although their variance is positive (proved)."},
 {"property": "C47", "status": "partial", "theorems": ["Verif.C47_average_partial", "Verif.C47_average_physical_partial", "Verif.C47_latent", "Verif.C47_symm", "Verif.C47_dense_likelihood", "Verif.C47_error_bound", "Verif.C47_threshold_refuted", "Verif.C47_pair_refuted", "Verif.C47_overdamped_refuted", "Verif.C47_critical"], "note": "Exact for every underdamped oscillator and all exposures which are zero or resolved, in every geometry; otherwise within 2 pi 1e-4 sigma^2/eta. False for overdamped oscillators, undefined at Q=1/2, and pairs (t, texp) ignore the exposure (proved)."},
 {"property": "C48", "status": "proved", "theorems": ["Verif.C48_matern12", "Verif.C48_matern32", "Verif.C48_matern52", "Verif.C48_charpoly"], "note": "All matrices agree; the generic covariance is Verif.C36_matern and C24."},
 {"property": "C49", "status": "proved", "theorems": ["Verif.C49_fails_iff", "Verif.C49_two_axes", "Verif.C49_block_view"], "note": "Reshape and transpose modelled on flat row-major data."},
 {"property": "C59", "status": "partial", "theorems": ["Verif.C59_full_state", "Verif.C59_observation_model", "Verif.C59_derivative_covariance", "Verif.C59_derivative_prediction", "Verif.C59_matern32_row", "Verif.C59_matern52_row", "Verif.C59_sho_row", "Verif.C59_cosine_row", "Verif.C59_sum_row", "Verif.C59_prod_row", "Verif.C59_observation_model_ignored"], "note": "Exact state posterior, exact functionals, derivative rows for every valid kernel without Exp. Proved: the argument is silently ignored without X_test or together with kernel=."},
 {"property": "C60", "status": "partial", "theorems": ["Verif.C60_prior_loc", "Verif.C60_prior_variance_missing", "Verif.C60_conditioned", "Verif.C60_condition_on_component", "Verif.C60_component_forgotten"], "note": "Posterior accessors and the prior mean proved; the prior variance is None (negation proved); predictions forget the chosen component (proved)."},
 {"property": "C61", "status": "proved", "theorems": ["Verif.C61_log_probability", "Verif.C61_condition", "Verif.C61_predict_at_data", "Verif.C61_predict", "Verif.C61_only_the_covariance_matters", "Verif.C61_rearranged"], "note": "Regression lists the supported combinations of kernel, coordinates and solver; underdamped SHO is outside (see C01)."},
 {"property": "C62", "status": "proved", "theorems": ["Verif.C62_extrapolation", "Verif.Regression.decays"], "note": "Regression.decays gives the hypothesis for integrated kernels and for damped trees."},
 {"property": "C63", "status": "proved", "theorems": ["Verif.C63_continuous"], "note": ""},
 {"property": "C64", "status": "proved", "theorems": ["Verif.C64_periodic", "Verif.Kern.Repeats.periodic"], "note": "Kern.Repeats.periodic gives the hypothesis for trees of Cosine and ExpSineSquared."},
 {"property": "C65", "status": "proved", "theorems": ["Verif.C65_less_noise_more_data"], "note": ""},
 {"property": "C66", "status": "proved", "theorems": ["Verif.C66_repeated_measurements"], "note": ""},
 {"property": "C67", "status": "proved", "theorems": ["Verif.C67_redundant_data"], "note": "The added measurements are instantaneous, as are all data of the second GP."},
 {"property": "C68", "status": "partial", "theorems": ["Verif.C68_units", "Verif.C68_sho_units_matter"], "note": "All supported kernels; for the underdamped SHO the absolute cut-off 1e-14 makes units matter (proved)."},
 {"property": "C69", "status": "proved", "theorems": ["Verif.C69_log_probability", "Verif.C69_predict", "Verif.C69_short_exposures"], "note": ""},
 {"property": "C70", "status": "proved", "theorems": ["Verif.C70_log_probability", "Verif.C70_condition", "Verif.C70_predict", "Verif.C70_sho", "Verif.C70_sho_predict", "Verif.C70_succeeds"], "note": "Sequential solver; Kern.Truncated gives the constants for trees."},
 {"property": "C71", "status": "partial", "theorems": ["Verif.C71_log_probability", "Verif.C71_condition", "Verif.C71_predict", "Verif.C71_exposures_log_probability", "Verif.C71_exposures_predict"], "note": "Not covered: underdamped SHO, whose results are only approximate (C70) unless the steps are resolved (C97), Exp with the parallel solver, which fails (C30), IntegratedCosine, whose smoother fails (C56), and exposures of zero length or with equal starts (C11, C56)."},
 {"property": "C72", "status": "proved", "theorems": ["Verif.C72_log_probability", "Verif.C72_condition", "Verif.C72_predict", "Verif.C72_periodic_log_probability", "Verif.C72_periodic_predict"], "note": "Kern.Approximates gives the distance for trees with ExpSineSquared and with SHO near critical damping."},
 {"property": "C73", "status": "proved", "theorems": ["Verif.C73_evaluate", "Verif.C73_continuous", "Verif.C73_log_probability", "Verif.C73_predict"], "note": "An energy estimate for the oscillator equation bounds the dependence on the quality."},
 {"property": "C74", "status": "partial", "theorems": ["Verif.C74_log_probability", "Verif.C74_condition_partial", "Verif.C74_small_amplitude_singular", "Verif.C74_succeeds"], "note": "Sequential integrated solver. The bound for condition assumes that the matrices the smoother inverts are invertible; for small amplitudes, where all noise is cut off, they are singular (proved)."},
 {"property": "C75", "status": "proved", "theorems": ["Verif.C75_predictive_density", "Verif.C75_update", "Verif.C75_leave_one_out"], "note": "Any solver of C61; the first two need instantaneous data, since prediction at exposures fails (C55)."},
 {"property": "C76", "status": "partial", "theorems": ["Verif.C76_log_probability", "Verif.C76_predict", "Verif.C76_textbook_log_probability", "Verif.C76_textbook_predict", "Verif.C76_log_probability_differentiable", "Verif.C76_predict_differentiable", "Verif.C76_exposures_log_probability", "Verif.C76_exposures_predict"], "note": "The derivative of the computed function; what jax.grad returns is not modelled. Not covered: underdamped SHO, whose noise is cut off by jumps (C70; C97 has the derivatives away from the jumps), and the damping regimes being crossed."},
 {"property": "C77", "status": "proved", "theorems": ["Verif.C77_density", "Verif.C77_normalised", "Verif.C77_predict", "Verif.C77_at_data", "Verif.C77_conditional_expectation", "Verif.C77_true_model_has_the_largest_expected_likelihood", "Verif.C77_averages", "Verif.C77_instants", "Verif.C77_exists"], "note": "For the kernels, coordinates and solvers of C61. C77_averages and C77_instants give the experiments from a process and errors; C77_exists shows that there are such experiments."},
 {"property": "C78", "status": "partial", "theorems": ["Verif.C78_sum", "Verif.C78_product", "Verif.C78_sum_integrated", "Verif.C78_only_kernels_add", "Verif.C78_sum_mixed_raises", "Verif.C78_math_prod_raises"], "note": "math.prod starts with the factor 1 and raises for every list (C78_math_prod_raises), since scalar multiples do (C28)."},
 {"property": "C79", "status": "partial", "theorems": ["Verif.C79_not_implemented"], "note": "Refuted: both raise NotImplementedError."},
 {"property": "C80", "status": "proved", "theorems": ["Verif.C80_parallel", "Verif.C80_elements", "Verif.C80_parallel_integrated", "Verif.C80_parallel_integrated_smoother", "Verif.C80_sequential_filter"], "note": "Counts combinations of elements; sorting, indexing and the final projection are not counted."},
 {"property": "C81", "status": "proved", "theorems": ["Verif.C81_predict", "Verif.C81_condition"], "note": "For the kernels, coordinates and solvers of C61."},
 {"property": "C82", "status": "proved", "theorems": ["Verif.C82_predict", "Verif.C82_consistent", "Verif.C82_mean_square"], "note": "For the kernels, coordinates and solvers of C61; Within describes data near a test time."},
 {"property": "C83", "status": "proved", "theorems": ["Verif.C83_bounds"], "note": "For the kernels, coordinates and solvers of C61."},
 {"property": "C84", "status": "proved", "theorems": ["Verif.C84_short_scales", "Verif.C84_long_scales"], "note": "For the kernels, coordinates and solvers of C61; Kern.inUnits a 1 multiplies the time scales by a (C68)."},
 {"property": "C85", "status": "proved", "theorems": ["Verif.C85_log_probability", "Verif.C85_predict"], "note": "For the kernels, coordinates and solvers of C61; Joined describes the two sets of data."},
 {"property": "C86", "status": "partial", "theorems": ["Verif.C86_user_kernel", "Verif.C86_van_loan_iff", "Verif.C86_van_loan_kernel", "Verif.C86_assembled", "Verif.C86_integrated", "Verif.C86_integrated_ignores_row", "Verif.C86_integrated_row_refuted"], "note": "Refuted for the integrated version with a row other than (1, 0, ..., 0): the row of the base kernel is ignored (C86_integrated_ignores_row, C86_integrated_row_refuted). Exact real arithmetic: exponentials and the Van Loan blocks are the exact ones."},
 {"property": "C87", "status": "proved", "theorems": ["Verif.C87_any_row", "Verif.C87_derivative", "Verif.C87_combination", "Verif.C87_tutorial", "Verif.C87_tutorial_combination"], "note": "Instantaneous data; Genuine excludes the approximated SHO near quality 1/2."},
 {"property": "C88", "status": "partial", "theorems": ["Verif.C88_sequential", "Verif.C88_amplitude", "Verif.C88_evaluate_partial", "Verif.C88_evaluate_refuted", "Verif.C88_parallel_refuted"], "note": "Proved for the sequential solver. Refuted for the kernel function called with the earlier coordinate first (C88_evaluate_refuted) and for the parallel solver, which evaluates the row at time differences (C88_parallel_refuted)."},
 {"property": "C89", "status": "proved", "theorems": ["Verif.C89_one_step", "Verif.C89_likelihood", "Verif.C89_predicts", "Verif.C89_white"], "note": "For the kernels, coordinates and solvers of C61; C89_predicts for instantaneous data, whose order is that of time."},
 {"property": "C90", "status": "proved", "theorems": ["Verif.C90_averages"], "note": "For the kernels, coordinates and solvers of C61."},
 {"property": "C91", "status": "proved", "theorems": ["Verif.C91_smooth"], "note": "For the kernels, coordinates and solvers of C61."},
 {"property": "C92", "status": "proved", "theorems": ["Verif.C92_update", "Verif.C92_bounds", "Verif.C92_masking"], "note": "For the kernels, coordinates and solvers of C61; OneDatumMore describes the further measurement (C75)."},
 {"property": "C93", "status": "proved", "theorems": ["Verif.C93_smoothing_spline"], "note": "For the kernels, coordinates and solvers of C61."},
 {"property": "C94", "status": "proved", "theorems": ["Verif.C94_symmetries", "Verif.C94_reversal"], "note": "For the kernels, coordinates and solvers of C61; instantaneous data have to be sorted in both datasets."},
 {"property": "C95", "status": "proved", "theorems": ["Verif.C95_predict", "Verif.C95_at_data", "Verif.C95_exists"], "note": "Instantaneous data; sequential and parallel solvers. Names that occur inside other names select too much, which C40 and C54 record."},
 {"property": "C96", "status": "proved", "theorems": ["Verif.C96_derivative"], "note": "Instantaneous data. That the processes of a kernel have differentiable paths is a hypothesis; the example constructs the waves of the Cosine kernel."},
 {"property": "C97", "status": "proved", "theorems": ["Verif.C97_log_probability", "Verif.C97_condition", "Verif.C97_predict", "Verif.C97_textbook_log_probability", "Verif.C97_textbook_predict", "Verif.C97_gradient", "Verif.C97_differentiable", "Verif.C97_succeeds", "Verif.C97_hasCov"], "note": "The effect of entries below the cut-off is C70; that it makes results wrong is C01_sho_truncated_likelihood_wrong."},
 {"property": "C98", "status": "partial", "theorems": ["Verif.C98_second_alone", "Verif.C98_forgets", "Verif.C98_both_partial"], "note": "Refuted: the first set of data is forgotten. The partial result is that a new GP with the means of both sets and half the noise variances gives that posterior."},
 {"property": "C99", "status": "proved", "theorems": ["Verif.C99_log_probability", "Verif.C99_condition", "Verif.C99_predict", "Verif.C99_succeeds"], "note": "The effect of entries below the cut-off is C74, with a bound and with the failure of the smoother at small amplitude."},
 {"property": "C100", "status": "proved", "theorems": ["Verif.C100_linear", "Verif.C100_translation", "Verif.C100_interpolation"], "note": "Linearity and translation for all four solvers; no hypothesis on the kernel or on the order and overlap of the data. Interpolation for the sequential and integrated solvers; interpolation of exposures needs the integrated solver, which is the one chosen by default."},
 {"property": "C101", "status": "proved", "theorems": ["Verif.C101_parallel_filter", "Verif.C101_parallel_smoother", "Verif.C101_log_probability", "Verif.C101_condition", "Verif.C101_interpolation", "Verif.C101_positive_noise", "Verif.C101_two_data"], "note": "The systems meant are `1 + C J` of every pair the scan combines (listed by `scanCombines`) and the innovation variance of every scan element. The hypothesis is needed: jnp.linalg.solve of a singular system returns nan or inf, which the real-valued model does not describe."},
 {"property": "C102", "status": "proved", "theorems": ["Verif.C102_parallel_filter", "Verif.C102_parallel_smoother", "Verif.C102_log_probability", "Verif.C102_condition", "Verif.C102_interpolation", "Verif.C102_positive_noise", "Verif.C102_otherwise_ignored"], "note": "The condition that one exposure begins before any ends is necessary (C102_otherwise_ignored). The systems meant are `1 + C J` of every pair the scan combines and the innovation variance of the scan element of every exposure end; a singular system gives nan or inf in the package, which the real-valued model does not describe."},
 {"property": "C103", "status": "proved", "theorems": ["Verif.C103_predictive_density", "Verif.C103_update"], "note": "The sequential solver. C75 has the statement for a further measurement anywhere, for kernels and data for which the solver is exact."}
]}
