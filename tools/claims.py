claim("C01", "partial", "C01_log_probability C01_constructor C01_likelihood_exact C01_likelihood_exact_builtin C01_likelihood_exact_over_gaps C01_C02_C03_sho_underdamped_partial C01_sho_truncated_likelihood_wrong C28_scale_likelihood_wrong",
      "Exact for every kernel whose noise equals Pinf - A Pinf A^T; false for underdamped SHO whose noise entries are truncated at 1e-14 (negation proved) and for scaled kernels (negation proved).")
claim("C02", "proved", "C02_C03_condition C02_condition_succeeds C02_conditioned_mean_exact C02_C03_conditioned_exact_over_gaps C02_C03_conditioned_exact_general")
claim("C03", "proved", "C02_C03_condition C03_conditioned_variance_exact C02_C03_conditioned_exact_over_gaps C02_C03_conditioned_exact_general")
claim("C04", "proved", "C04_predict C04_prediction_exact")
claim("C05", "proved", "C05_predict C05_predict_any C05_predict_at_data",
      "C05_predict: package interface, both instantaneous solvers, repeated times. C05_predict_any needs no exactness: oscillators of any damping, any noise, times observed once.")
claim("C20", "partial", "C20_transition_is_exp_partial C20_sho_window_not_exp",
      "Proved for all sums, products and scalings of shipped instantaneous kernels except SHO with quality inside the isclose window around 1/2, where the negation is proved.")
claim("C21", "partial", "C21_transition_composes C21_integrated_composes C21_integrated_sho_window",
      "All kernels, integrated or not, except IntegratedSHO with quality inside the isclose window around 1/2, where the negation is proved.")
claim("C22", "partial", "C22_noise_is_stationary_partial C22_sho_underdamped_partial C22_noise_zero C22_sho_untruncated C22_sho_truncated",
      "Exact except underdamped SHO, which is within the truncation constant; negation proved for small sigma.")
claim("C23", "proved", "C23_lyapunov")
claim("C24", "partial", "C24_exp C24_matern32 C24_matern52 C24_cosine C24_matern C24_sho C24_sho_window C24_variance C24_sho_doc_formula_wrong",
      "Closed forms proved; the formula printed in the SHO docstring for Q > 1/2 is refuted (cos and sin swapped), and inside the isclose window the value is that of Q = 1/2.")
claim("C25", "partial", "C25_symmetric_partial C25_stationary C25_diagonal C25_integrated_not_symmetric",
      "All instantaneous kernels; proved to fail for integrated kernels (the value between a latent point and a later exposure depends on the order).")
claim("C26", "proved", "C26_gram_psd")
claim("C27", "proved", "C27_sum_evaluate C27_prod_evaluate C27_expression C27_diagonal")
claim("C28", "partial", "C28_scalar_multiple_raises C28_scale_evaluate_partial C28_scale_inconsistent C28_scale_likelihood_wrong",
      "Multiplying a kernel by a number raises (C28_scalar_multiple_raises); with Scale built directly the covariance function is scaled and the process noise is not, so the likelihood is wrong (negation proved).")
claim("C29", "partial", "C29_series C29_truncation_bound C29_periodic C29_bounded C29_deviation_partial C29_auto_order C29_variance_too_small C29_error_bound_wrong C29_error_bound_partial",
      "Periodicity, symmetry, bound and a correct deviation bound proved; error_bound() holds for 2/order <= gamma <= 2 and is refuted in general.")
claim("C16", "partial", "C16_state_covariances_psd C16_variances_nonneg C16_sho_noise_not_psd",
      "Proved for kernels with exact process noise; the truncated noise of an underdamped SHO is not positive semidefinite (negation proved).")
claim("C17", "proved", "C17_states_shrink C17_variances_le_prior C17_more_data")
claim("C18", "proved", "C18_filter_causal C18_integrated_causal C18_prediction_causal C18_prefix_likelihood")
claim("C19", "proved", "C19_condition_linear C19_predict_linear")
claim("C46", "proved", "C46_total C46_integrated_total C46_finite C46_bottom_occurs")
claim("C50", "proved", "C50_time_translation")
claim("C51", "proved", "C51_interpolation C51_interpolation_any C51_integrated_interpolation C100_interpolation")
claim("C06", "partial", "C06_parallel_filter C06_parallel_likelihood C06_parallel_likelihood_builtin C06_noise_free_repeat C06_constructor C06_log_probability C07_same_answers",
      "Equality proved whenever noise variance plus process-noise variance of each datum is positive; for noise-free repeated times the parallel filter solves a zero system although the sequential one does not (proved). Kernels with a one-dimensional state fail in the parallel code, see C30.")
claim("C07", "proved", "C07_parallel_smoother C07_parallel_smoother_general C07_smoother_systems_posdef C07_parallel_conditioned C07_parallel_prediction C07_condition C07_condition_succeeds C07_predict C07_same_answers")
claim("C08", "proved", "C08_filter_schedule C08_smoother_schedule C08_no_singular_system C08_filter_scan_any_order")
claim("C31", "proved", "C31_phibar C31_process_noise C31_vanLoan_F3 C31_vanLoan_M C31_vanLoan_W")
claim("C32", "partial", "C32_transition C32_process_noise C32_shipped_transition C32_shipped_noise C32_sho_noise",
      "Exact for any base kernel with exact transition and noise; IntegratedSHO noise up to the 1e-14 cut; the isclose window is excluded (its base block is that of quality 1/2).")
claim("C33", "proved", "C33_phibar C33_q12 C33_q22")
claim("C09", "proved", "C09_integrated_likelihood_exact C09_integrated_likelihood_exact_psd")
claim("C10", "proved", "C10_integrated_smoothing_exact C10_conditioned_exact")
claim("C12", "partial", "C12_parallel_filter C12_parallel_likelihood C12_parallel_smoother C12_parallel_conditioned C12_parallel_predict C12_likelihood_exact_partial C12_conditioned_exact_partial C12_first_instantaneous_ignored C12_conditioned_refuted C12_likelihood_refuted C11_log_probability C11_condition C58_predict",
      "Proved whenever the first event is an exposure start (every exposure of positive length), with exactness of the likelihood and of the conditioned rows following. False otherwise, with proved witnesses: if the first event is the end of a zero-length measurement the parallel solver ignores that datum.")
claim("C13", "proved", "C13_events_sorted C13_one_start_one_end C13_ends_before_starts C13_start_before_end")
claim("C14", "proved", "C14_results_in_input_order C14_parallel_results_in_input_order C14_length")
claim("C11", "partial", "C11_likelihood C11_likelihood_on_events C11_conditioned C11_latent C11_log_probability C11_condition",
      "Proved for every sum of exported integrated kernels and every schedule without overlap on one instrument; an underdamped IntegratedSHO is covered whenever its noise over the event gaps is not truncated (NoiseOnEvents), the isclose window of SHO is excluded.")
claim("C56", "partial", "C56_systems_posdef C56_conditioned_partial C56_simultaneous_starts_singular C56_cosine_singular",
      "Holds when exposures start at different times and no IntegratedCosine is involved; proved to fail otherwise: the smoother is given a singular system.")

claim("C34", "proved", "C34_reset C34_reset_observed C34_instantaneous C34_idempotent_commute C34_out_of_range_resets_last",
      "For instruments 0..num_insts-1; an index beyond the last instrument is not rejected but resets the last one (proved).")
claim("C35", "proved", "C35_observation")

claim("C30", "partial", "C30_log_probability_iff_partial C30_constant_fails C30_exp_parallel_fails C30_constant_variance",
      "Exactly which kernel trees raise with which solver; Constant raises with every solver and Exp / IntegratedExp with the parallel ones (proved).")
claim("C37", "partial", "C37_names C37_distinct_iff C37_collision C37_products_stay_equal",
      "The resulting names and exactly when they are distinct; fails when a numbered name collides with an existing one and for equal products (proved).")
claim("C38", "partial", "C38_construction_iff C38_sum_partial C38_product_fails",
      "Exactly when construction succeeds; always for sums without products; two products whose factors have equal names raise KeyError (proved).")
claim("C39", "partial", "C39_means_add_up_partial C39_predictions_add_up_partial C39_product_lost",
      "Proved for sums whose components are not products; the mean of a product component is returned as 0 (proved).")
claim("C40", "partial", "C40_no_name C40_component_partial C40_predicted_component_partial C40_unknown_name C40_list_is_sum C40_factor_leaks",
      "The component mean is the posterior mean of that component, for components that are not products and whose name is not used by a factor of a product; the failures are proved.")
claim("C41", "partial", "C41_summands C41_all C41_dense_summands C41_dense_all C41_dense_all_refuted",
      "Proved for the kernels of smolgp; the copy in kernels/dense.py drops the flag all in its recursion (negation proved).")
claim("C42", "proved", "C42_predict_needs_data C42_components_need_data C42_states C42_predict_is_condition_predict C42_conditioned_ignores_data C42_recondition")
claim("C43", "partial", "C43_condition_with_test_coordinates_raises C43_format_checked",
      "Refuted: the call raises for every GP, data set and test coordinates, so no positive part exists.")
claim("C44", "partial", "C44_mean_has_no_effect C44_mean_ignored",
      "Refuted: the mean function has no effect on likelihood, conditioning or prediction; with the default zero mean the property is C01-C04.")
claim("C45", "partial", "C45_default_solver C45_times_rejected C45_formats_partial C45_pair_rejected C45_product_unnoticed C45_integrated_constructor C45_pair_prediction_raises",
      "The choice and the accepted formats; the documented (t, texp) is rejected and integrated factors of products are not noticed (proved).")
claim("C52", "partial", "C52_condition_partial C52_parallel_raises",
      "All solvers except the parallel one, for which the default arguments raise (proved).")
claim("C54", "partial", "C54_names_kept_partial C54_only_names C54_flag_forgotten C54_renamed_again",
      "Kept if distinct; otherwise renamed again, also with use_unique_names=False (proved).")
claim("C57", "partial", "C02_condition_succeeds C57_single_point C57_integrated_condition_succeeds C07_condition_succeeds",
      "Exactly when condition(y) succeeds with the sequential solver; with a single datum it raises (proved).")
claim("C15", "proved", "C15_likelihood C15_conditioned C15_predict C15_parallel C15_likelihood_ties",
      "Any kernel, all event times distinct, both integrated solvers; the likelihood of shipped integrated kernels also with ties.")
claim("C53", "partial", "C53_equal_exposures_partial C53_likelihood C53_refuted",
      "False: the instantaneous part is taken at the END of the exposure (exact law proved, with a counterexample); right when all exposures are equally long.")
claim("C55", "partial", "C55_prediction_law C55_refuted C55_before_the_data C55_own_exposure_half C58_latent_prediction",
      "False for delta*>0: the state at the centre is read, so the answer is the integral since the instrument's last start over delta* (law proved), and an arbitrary unit variance over delta*^2 before the data. Right for delta*=0 (C58).")
claim("C58", "proved", "C58_latent_prediction C58_prediction_exact C58_predict",
      "Sums of integrated Exp, Matern32, Matern52, non-underdamped SHO; exposures of positive length with distinct starts, positive noise; the general form covers any kernel sum with regular systems.")
claim("C36", "proved", "C36_real C36_nonneg C36_even C36_sum C36_scale C36_defined C36_psd_is_spectrum C36_matern C36_exp C36_matern32 C36_matern52 C36_sho C36_cosine_zero C36_expSineSquared_zero",
      "Damped sums and products: psd is the Fourier transform of the covariance at every frequency. Cosine and ExpSineSquared give 0 away from their spectral lines although their variance is positive (proved).")
claim("C47", "partial", "C47_average_partial C47_average_physical_partial C47_latent C47_symm C47_dense_likelihood C47_error_bound C47_threshold_refuted C47_pair_refuted C47_overdamped_refuted C47_critical",
      "Exact for every underdamped oscillator and all exposures which are zero or resolved, in every geometry; otherwise within 2 pi 1e-4 sigma^2/eta. False for overdamped oscillators, undefined at Q=1/2, and pairs (t, texp) ignore the exposure (proved).")
claim("C48", "proved", "C48_matern12 C48_matern32 C48_matern52 C48_charpoly", "All matrices agree; the generic covariance is Verif.C36_matern and C24.")
claim("C49", "proved", "C49_fails_iff C49_two_axes C49_block_view", "Reshape and transpose modelled on flat row-major data.")
claim("C59", "partial", "C59_full_state C59_observation_model C59_derivative_covariance C59_derivative_prediction C59_matern32_row C59_matern52_row C59_sho_row C59_cosine_row C59_sum_row C59_prod_row C59_observation_model_ignored",
      "Exact state posterior, exact functionals, derivative rows for every valid kernel without Exp. Proved: the argument is silently ignored without X_test or together with kernel=.")
claim("C60", "partial", "C60_prior_loc C60_prior_variance_missing C60_conditioned C60_condition_on_component C60_component_forgotten",
      "Posterior accessors and the prior mean proved; the prior variance is None (negation proved); predictions forget the chosen component (proved).")
claim("C61", "proved", "C61_log_probability C61_condition C61_predict_at_data C61_predict C61_only_the_covariance_matters C61_rearranged",
      "Regression lists the supported combinations of kernel, coordinates and solver; underdamped SHO is outside (see C01).")
claim("C62", "proved", "C62_extrapolation Regression.decays", "Regression.decays gives the hypothesis for integrated kernels and for damped trees.")
claim("C63", "proved", "C63_continuous", "")
claim("C64", "proved", "C64_periodic Kern.Repeats.periodic", "Kern.Repeats.periodic gives the hypothesis for trees of Cosine and ExpSineSquared.")
claim("C65", "proved", "C65_less_noise_more_data", "")
claim("C66", "proved", "C66_repeated_measurements", "")
claim("C67", "proved", "C67_redundant_data", "The added measurements are instantaneous, as are all data of the second GP.")
claim("C68", "partial", "C68_units C68_sho_units_matter", "All supported kernels; for the underdamped SHO the absolute cut-off 1e-14 makes units matter (proved).")
claim("C69", "proved", "C69_log_probability C69_predict C69_short_exposures", "")
claim("C70", "proved", "C70_log_probability C70_condition C70_predict C70_sho C70_sho_predict C70_succeeds", "Sequential solver; Kern.Truncated gives the constants for trees.")
claim("C71", "partial", "C71_log_probability C71_condition C71_predict C71_exposures_log_probability C71_exposures_predict",
      "Not covered: underdamped SHO, whose results are only approximate (C70) unless the steps are resolved (C97), Exp with the parallel solver, which fails (C30), IntegratedCosine, whose smoother fails (C56), and exposures of zero length or with equal starts (C11, C56).")
claim("C72", "proved", "C72_log_probability C72_condition C72_predict C72_periodic_log_probability C72_periodic_predict", "Kern.Approximates gives the distance for trees with ExpSineSquared and with SHO near critical damping.")
claim("C73", "proved", "C73_evaluate C73_continuous C73_log_probability C73_predict", "An energy estimate for the oscillator equation bounds the dependence on the quality.")
claim("C74", "partial", "C74_log_probability C74_condition_partial C74_small_amplitude_singular C74_succeeds",
      "Sequential integrated solver. The bound for condition assumes that the matrices the smoother inverts are invertible; for small amplitudes, where all noise is cut off, they are singular (proved).")
claim("C75", "proved", "C75_predictive_density C75_update C75_leave_one_out", "Any solver of C61; the first two need instantaneous data, since prediction at exposures fails (C55).")
claim("C76", "partial", "C76_log_probability C76_predict C76_textbook_log_probability C76_textbook_predict C76_log_probability_differentiable C76_predict_differentiable C76_exposures_log_probability C76_exposures_predict",
      "The derivative of the computed function; what jax.grad returns is not modelled. Not covered: underdamped SHO, whose noise is cut off by jumps (C70; C97 has the derivatives away from the jumps), and the damping regimes being crossed.")
claim("C77", "proved", "C77_density C77_normalised C77_predict C77_at_data C77_conditional_expectation C77_true_model_has_the_largest_expected_likelihood C77_averages C77_instants C77_exists",
      "For the kernels, coordinates and solvers of C61. C77_averages and C77_instants give the experiments from a process and errors; C77_exists shows that there are such experiments.")
claim("C78", "partial", "C78_sum C78_product C78_sum_integrated C78_only_kernels_add C78_sum_mixed_raises C78_math_prod_raises",
      "math.prod starts with the factor 1 and raises for every list (C78_math_prod_raises), since scalar multiples do (C28).")
claim("C79", "partial", "C79_not_implemented", "Refuted: both raise NotImplementedError.")
claim("C80", "proved", "C80_parallel C80_elements C80_parallel_integrated C80_parallel_integrated_smoother C80_sequential_filter",
      "Counts combinations of elements; sorting, indexing and the final projection are not counted.")
claim("C81", "proved", "C81_predict C81_condition", "For the kernels, coordinates and solvers of C61.")
claim("C82", "proved", "C82_predict C82_consistent C82_mean_square", "For the kernels, coordinates and solvers of C61; Within describes data near a test time.")
claim("C83", "proved", "C83_bounds", "For the kernels, coordinates and solvers of C61.")
claim("C84", "proved", "C84_short_scales C84_long_scales", "For the kernels, coordinates and solvers of C61; Kern.inUnits a 1 multiplies the time scales by a (C68).")
claim("C85", "proved", "C85_log_probability C85_predict", "For the kernels, coordinates and solvers of C61; Joined describes the two sets of data.")
claim("C86", "partial", "C86_user_kernel C86_van_loan_iff C86_van_loan_kernel C86_assembled C86_integrated C86_integrated_ignores_row C86_integrated_row_refuted",
      "Refuted for the integrated version with a row other than (1, 0, ..., 0): the row of the base kernel is ignored (C86_integrated_ignores_row, C86_integrated_row_refuted). Exact real arithmetic: exponentials and the Van Loan blocks are the exact ones.")
claim("C87", "proved", "C87_any_row C87_derivative C87_combination C87_tutorial C87_tutorial_combination", "Instantaneous data; Genuine excludes the approximated SHO near quality 1/2.")
claim("C88", "partial", "C88_sequential C88_amplitude C88_evaluate_partial C88_evaluate_refuted C88_parallel_refuted",
      "Proved for the sequential solver. Refuted for the kernel function called with the earlier coordinate first (C88_evaluate_refuted) and for the parallel solver, which evaluates the row at time differences (C88_parallel_refuted).")
claim("C89", "proved", "C89_one_step C89_likelihood C89_predicts C89_white", "For the kernels, coordinates and solvers of C61; C89_predicts for instantaneous data, whose order is that of time.")
claim("C90", "proved", "C90_averages", "For the kernels, coordinates and solvers of C61.")
claim("C91", "proved", "C91_smooth", "For the kernels, coordinates and solvers of C61.")
claim("C92", "proved", "C92_update C92_bounds C92_masking", "For the kernels, coordinates and solvers of C61; OneDatumMore describes the further measurement (C75).")
claim("C93", "proved", "C93_smoothing_spline", "For the kernels, coordinates and solvers of C61.")
claim("C94", "proved", "C94_symmetries C94_reversal", "For the kernels, coordinates and solvers of C61; instantaneous data have to be sorted in both datasets.")
claim("C95", "proved", "C95_predict C95_at_data C95_exists", "Instantaneous data; sequential and parallel solvers. Names that occur inside other names select too much, which C40 and C54 record.")
claim("C96", "proved", "C96_derivative", "Instantaneous data. That the processes of a kernel have differentiable paths is a hypothesis; the example constructs the waves of the Cosine kernel.")
claim("C97", "proved", "C97_log_probability C97_condition C97_predict C97_textbook_log_probability C97_textbook_predict C97_gradient C97_differentiable C97_succeeds C97_hasCov", "The effect of entries below the cut-off is C70; that it makes results wrong is C01_sho_truncated_likelihood_wrong.")
claim("C98", "partial", "C98_second_alone C98_forgets C98_both_partial", "Refuted: the first set of data is forgotten. The partial result is that a new GP with the means of both sets and half the noise variances gives that posterior.")
claim("C99", "proved", "C99_log_probability C99_condition C99_predict C99_succeeds", "The effect of entries below the cut-off is C74, with a bound and with the failure of the smoother at small amplitude.")
claim("C100", "proved", "C100_linear C100_translation C100_interpolation", "Linearity and translation for all four solvers; no hypothesis on the kernel or on the order and overlap of the data. Interpolation for the sequential and integrated solvers; interpolation of exposures needs the integrated solver, which is the one chosen by default.")
claim("C101", "proved", "C101_parallel_filter C101_parallel_smoother C101_log_probability C101_condition C101_interpolation C101_positive_noise C101_two_data", "The systems meant are `1 + C J` of every pair the scan combines (listed by `scanCombines`) and the innovation variance of every scan element. The hypothesis is needed: jnp.linalg.solve of a singular system returns nan or inf, which the real-valued model does not describe.")
claim("C102", "proved", "C102_parallel_filter C102_parallel_smoother C102_log_probability C102_condition C102_interpolation C102_positive_noise C102_otherwise_ignored", "The condition that one exposure begins before any ends is necessary (C102_otherwise_ignored). The systems meant are `1 + C J` of every pair the scan combines and the innovation variance of the scan element of every exposure end; a singular system gives nan or inf in the package, which the real-valued model does not describe.")
claim("C103", "proved", "C103_predictive_density C103_update", "The sequential solver. C75 has the statement for a further measurement anywhere, for kernels and data for which the solver is exact.")
