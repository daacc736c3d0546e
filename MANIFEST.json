{
 "claims": [
  {
   "property": "C01",
   "status": "proved",
   "theorems": [
    "QInfer.C01_weights_are_probability_vector",
    "QInfer.C01_default_threshold"
   ],
   "note": "Policies error and skip, exact arithmetic, likelihoods non-negative. C01_default_threshold shows the default threshold meets the hypothesis."
  },
  {
   "property": "C02",
   "status": "partial",
   "theorems": [
    "QInfer.C02_reset_policy_loses_weights",
    "QInfer.C02_reset_policy_locations_partial"
   ],
   "note": "The claim is false at the pinned commit: smc.py 432-441 resets the cloud and then overwrites the uniform weights with the zero ones. C02_reset_policy_loses_weights is the negation; the _partial theorem is what remains true (locations are redrawn)."
  },
  {
   "property": "C03",
   "status": "proved",
   "theorems": [
    "QInfer.C03_hypothetical_update_is_bayes",
    "QInfer.C03_impossible_outcome"
   ],
   "note": ""
  },
  {
   "property": "C04",
   "status": "proved",
   "theorems": [
    "QInfer.C04_posterior_closed_form",
    "QInfer.C04_order_independent",
    "QInfer.C04_any_policy",
    "QInfer.C04_order_independent_any_policy"
   ],
   "note": ""
  },
  {
   "property": "C05",
   "status": "proved",
   "theorems": [
    "QInfer.C05_normalizations_multiply_to_evidence",
    "QInfer.C05_log_total_likelihood"
   ],
   "note": ""
  },
  {
   "property": "C06",
   "status": "proved",
   "theorems": [
    "QInfer.C06_each_call",
    "QInfer.C06_data_record_exact",
    "QInfer.C06_data_record",
    "QInfer.C06_normalization_record",
    "QInfer.C06_records_survive",
    "QInfer.C06_batch_raises",
    "QInfer.C06_normalizations_of_history"
   ],
   "note": ""
  },
  {
   "property": "C07",
   "status": "proved",
   "theorems": [
    "QInfer.C07_policy_irrelevant",
    "QInfer.C07_policy_table",
    "QInfer.C07_exact_threshold"
   ],
   "note": ""
  },
  {
   "property": "C08",
   "status": "proved",
   "theorems": [
    "QInfer.C08_resample_iff",
    "QInfer.C08_resample_count",
    "QInfer.C08_just_resampled",
    "QInfer.C08_fresh_not_just_resampled",
    "QInfer.C08_any_policy"
   ],
   "note": ""
  },
  {
   "property": "C09",
   "status": "proved",
   "theorems": [
    "QInfer.C09_min_n_ess",
    "QInfer.C09_public_history",
    "QInfer.C09_min_n_ess_antitone",
    "QInfer.C09_any_policy"
   ],
   "note": ""
  },
  {
   "property": "C10",
   "status": "proved",
   "theorems": [
    "QInfer.C10_batch_is_plan",
    "QInfer.C10_interval_one",
    "QInfer.C10_interval_one_skip_differs",
    "QInfer.C10_length_mismatch",
    "QInfer.C10_interval_zero"
   ],
   "note": "Interval 1 agrees with repeated update for every policy except skip; C10_interval_one_skip_differs is the counterexample for skip."
  },
  {
   "property": "C11",
   "status": "proved",
   "theorems": [
    "QInfer.C11_ess_bounds"
   ],
   "note": ""
  },
  {
   "property": "C12",
   "status": "proved",
   "theorems": [
    "QInfer.C12_constructor_normalises",
    "QInfer.C12_zero_weights_nan",
    "QInfer.C12_argument_combinations"
   ],
   "note": ""
  },
  {
   "property": "C13",
   "status": "proved",
   "theorems": [
    "QInfer.C13_cov_is_centred_moment",
    "QInfer.C13_cov_psd",
    "QInfer.C13_cov_zero_iff",
    "QInfer.C13_cov_posSemidef"
   ],
   "note": ""
  },
  {
   "property": "C14",
   "status": "proved",
   "theorems": [
    "QInfer.C14_risk_decomposition",
    "QInfer.C14_risk_bounds",
    "QInfer.C14_risk_nan"
   ],
   "note": ""
  },
  {
   "property": "C15",
   "status": "proved",
   "theorems": [
    "QInfer.C15_info_gain_nonneg",
    "QInfer.C15_info_gain_nan"
   ],
   "note": ""
  },
  {
   "property": "C16",
   "status": "proved",
   "theorems": [
    "QInfer.C16_credible_region",
    "QInfer.C16_level_too_high"
   ],
   "note": ""
  },
  {
   "property": "C17",
   "status": "proved",
   "theorems": [
    "QInfer.C17_inverse_cdf",
    "QInfer.C17_draws_are_particles",
    "QInfer.C17_zero_weight_never_drawn"
   ],
   "note": ""
  },
  {
   "property": "C18",
   "status": "proved",
   "theorems": [
    "QInfer.C18_valid_or_warns",
    "QInfer.C18_accepted_unchanged",
    "QInfer.C18_no_postselect",
    "QInfer.C18_exceptions",
    "QInfer.C18_count"
   ],
   "note": ""
  },
  {
   "property": "C19",
   "status": "partial",
   "theorems": [
    "QInfer.C19_redraw_uses_wrong_parent",
    "QInfer.C19_actual_centre",
    "QInfer.C19_first_round_own_parent_partial",
    "QInfer.C19_some_parent_partial"
   ],
   "note": "Violated by the code: C19_redraw_uses_wrong_parent is a witness, C19_actual_centre says which centre is used. Proved: particles accepted in the first round, and that every particle belongs to some chosen parent."
  },
  {
   "property": "C20",
   "status": "proved",
   "theorems": [
    "QInfer.C20_h_consistent",
    "QInfer.C20_override_kept",
    "QInfer.C20_mean_preserved",
    "QInfer.C20_cov_formula",
    "QInfer.C20_cov_scaled"
   ],
   "note": ""
  },
  {
   "property": "C21",
   "status": "proved",
   "theorems": [
    "QInfer.C21_samples_valid",
    "QInfer.C21_runtime_error",
    "QInfer.C21_accepted_unchanged",
    "QInfer.C21_first_valid_kept"
   ],
   "note": ""
  },
  {
   "property": "C22",
   "status": "proved",
   "theorems": [
    "QInfer.C22_in_domain_iff",
    "QInfer.C22_values_exact",
    "QInfer.C22_n_members",
    "QInfer.C22_example_point",
    "QInfer.C22_reversed_bounds",
    "QInfer.C22_init",
    "QInfer.C22_init_truncates",
    "QInfer.C22_real_domain"
   ],
   "note": "Members and enumeration for all bounds; C22_reversed_bounds shows that a domain with max < min has an example point outside it."
  },
  {
   "property": "C23",
   "status": "proved",
   "theorems": [
    "QInfer.C23_values_exact",
    "QInfer.C23_in_domain_iff"
   ],
   "note": ""
  },
  {
   "property": "C24",
   "status": "proved",
   "theorems": [
    "QInfer.C24_values_exact",
    "QInfer.C24_in_domain_iff",
    "QInfer.C24_finite_iff",
    "QInfer.C24_init"
   ],
   "note": "C24_init shows that the documented single-list constructor call raises AttributeError."
  },
  {
   "property": "C25",
   "status": "proved",
   "theorems": [
    "QInfer.C25_join_spec",
    "QInfer.C25_separate_join",
    "QInfer.C25_join_separate",
    "QInfer.C25_to_from_regular",
    "QInfer.C25_from_to_regular",
    "QInfer.C25_empty_fails",
    "QInfer.C25_short_rows_fail"
   ],
   "note": "For arrays with at least one item; C25_empty_fails shows that arrays without items raise ZeroDivisionError."
  },
  {
   "property": "C26",
   "status": "proved",
   "theorems": [
    "QInfer.C26_to_simplex_in_simplex",
    "QInfer.C26_from_to",
    "QInfer.C26_to_from",
    "QInfer.C26_boundary_not_real",
    "QInfer.C26_uniform_to_zero"
   ],
   "note": ""
  },
  {
   "property": "C27",
   "status": "proved",
   "theorems": [
    "QInfer.C27_entries",
    "QInfer.C27_probabilities"
   ],
   "note": ""
  },
  {
   "property": "C28",
   "status": "proved",
   "theorems": [
    "QInfer.C28_outcome_iff",
    "QInfer.C28_simulate",
    "QInfer.C28_scalar_iff",
    "QInfer.C28_shifted_table_wrong",
    "QInfer.C28_shifted_table_raises",
    "QInfer.C28_nonconstant_fails",
    "QInfer.C28_domain",
    "QInfer.C28_probability"
   ],
   "note": "The claim for the default domain, and both defects: C28_shifted_table_wrong (outcome table indexed twice) and C28_nonconstant_fails (AttributeError)."
  },
  {
   "property": "C29",
   "status": "proved",
   "theorems": [
    "QInfer.C29_counts_ones",
    "QInfer.C29_sums_to_one",
    "QInfer.C29_single_measurement",
    "QInfer.C29_out_of_range"
   ],
   "note": ""
  },
  {
   "property": "C30",
   "status": "proved",
   "theorems": [
    "QInfer.C30_formula",
    "QInfer.C30_sums_to_one"
   ],
   "note": ""
  },
  {
   "property": "C31",
   "status": "proved",
   "theorems": [
    "QInfer.C31_likelihoods",
    "QInfer.C31_valid",
    "QInfer.C31_precession_value",
    "QInfer.C31_unknown_t2",
    "QInfer.C31_unknown_t2_negative_time",
    "QInfer.C31_inversion_score",
    "QInfer.C31_precession_score"
   ],
   "note": "UnknownT2Model for non-negative times; C31_unknown_t2_negative_time shows the restriction is needed."
  },
  {
   "property": "C32",
   "status": "proved",
   "theorems": [
    "QInfer.C32_coins",
    "QInfer.C32_coin_fisher",
    "QInfer.C32_die",
    "QInfer.C32_die_range",
    "QInfer.C32_die_negative",
    "QInfer.C32_coin_score"
   ],
   "note": ""
  },
  {
   "property": "C33",
   "status": "proved",
   "theorems": [
    "QInfer.C33_inverse",
    "QInfer.C33_fixed_points",
    "QInfer.C33_likelihood",
    "QInfer.C33_survival",
    "QInfer.C33_score",
    "QInfer.C33_score_interleaved"
   ],
   "note": ""
  },
  {
   "property": "C34",
   "status": "partial",
   "theorems": [
    "QInfer.C34_wrapper_call_count_partial",
    "QInfer.C34_base_call_count_partial",
    "QInfer.C34_sim_count_partial",
    "QInfer.C34_uncounted_calls",
    "QInfer.C34_miscounted_sims",
    "QInfer.C34_underlying_call_count",
    "QInfer.C34_base_under_wrappers"
   ],
   "note": "False for some classes: C34_uncounted_calls (UnknownT2Model, NoisyCoinModel, MLEModel) and C34_miscounted_sims (BinomialModel, MultinomialModel, GaussianHyperparameterizedModel). The _partial theorems cover all other modelled classes over every history."
  },
  {
   "property": "C35",
   "status": "proved",
   "theorems": [
    "QInfer.C35_chain",
    "QInfer.C35_base_model",
    "QInfer.C35_underlying"
   ],
   "note": ""
  },
  {
   "property": "C36",
   "status": "partial",
   "theorems": [
    "QInfer.C36_constructor",
    "QInfer.C36_stops_within_tolerance",
    "QInfer.C36_sample_count",
    "QInfer.C36_estimate_interior_partial",
    "QInfer.C36_terminates_partial",
    "QInfer.C36_diverges",
    "QInfer.C36_estimate_above_one"
   ],
   "note": "C36_estimate_above_one and C36_diverges refute parts of the claim; the two _partial theorems need samp_step <= min_samp (estimate inside (0,1)) and a bound for termination."
  },
  {
   "property": "C37",
   "status": "partial",
   "theorems": [
    "QInfer.C37_chunks",
    "QInfer.C37_likelihood_equals_serial",
    "QInfer.C37_no_engines",
    "QInfer.C37_default_threshold",
    "QInfer.C37_simulate_wrong_axis",
    "QInfer.C37_simulate_unpickled",
    "QInfer.C37_simulate_partial",
    "QInfer.C37_simulate_misplaced"
   ],
   "note": "likelihood proved for every chunking; simulate_experiment joins chunks along the wrong axis (C37_simulate_wrong_axis), C37_simulate_partial is what holds."
  },
  {
   "property": "C38",
   "status": "proved",
   "theorems": [
    "QInfer.C38_assignment",
    "QInfer.C38_likelihoods",
    "QInfer.C38_assertion",
    "QInfer.C38_full_ratio_raises",
    "QInfer.C38_good_nonempty"
   ],
   "note": "One outcome and experiment at a time; C38_full_ratio_raises records that mixture_ratio >= 1 always raises AssertionError."
  },
  {
   "property": "C39",
   "status": "proved",
   "theorems": [
    "QInfer.C39_best_guess_kept",
    "QInfer.C39_stored_cost_is_objective",
    "QInfer.C39_without_store",
    "QInfer.C39_null_last_guess_wins",
    "QInfer.C39_flat_gradient_raises",
    "QInfer.C39_optimiser_type_error",
    "QInfer.C39_callable_guess_fails",
    "QInfer.C39_returned_array_is_shared",
    "QInfer.C39_constructor"
   ],
   "note": "For algorithms CG and NCG; C39_null_last_guess_wins, C39_flat_gradient_raises, C39_callable_guess_fails and C39_returned_array_is_shared record the exceptions."
  },
  {
   "property": "C40",
   "status": "proved",
   "theorems": [
    "QInfer.C40_gell_mann",
    "QInfer.C40_gell_mann_elements",
    "QInfer.C40_labels",
    "QInfer.C40_gell_mann_zero",
    "QInfer.C40_traceless",
    "QInfer.C40_params_round_trip",
    "QInfer.C40_params_of_state",
    "QInfer.C40_len",
    "QInfer.C40_hermitian_part",
    "QInfer.C40_state_round_trip",
    "QInfer.C40_state_of_params",
    "QInfer.C40_sizes_checked",
    "QInfer.C40_many_states",
    "QInfer.C40_tensor_product",
    "QInfer.C40_tensor_elements",
    "QInfer.C40_no_factors",
    "QInfer.C40_pauli",
    "QInfer.C40_covariance_superop"
   ],
   "note": ""
  },
  {
   "property": "C41",
   "status": "partial",
   "theorems": [
    "QInfer.C41_truncation_partial",
    "QInfer.C41_truncation_distinct",
    "QInfer.C41_truncation_positive",
    "QInfer.C41_renormalize",
    "QInfer.C41_canonicalize",
    "QInfer.C41_density_unchanged",
    "QInfer.C41_allow_subnormalized",
    "QInfer.C41_no_rows",
    "QInfer.C41_likelihood",
    "QInfer.C41_born_rule",
    "QInfer.C41_skew_eigenvectors"
   ],
   "note": "np.linalg.eig does not promise orthogonal eigenvectors within a degenerate eigenspace, so the nearest-positive-part claim is refuted for the documented contract (C41_skew_eigenvectors) and proved for orthonormal eigenvectors (C41_truncation_partial) and for distinct eigenvalues; positivity, normalisation and the failure cases hold without that assumption."
  },
  {
   "property": "C42",
   "status": "proved",
   "theorems": [
    "QInfer.C42_beta_from_moments",
    "QInfer.C42_beta_admissible",
    "QInfer.C42_beta_from_shapes",
    "QInfer.C42_gamma_from_moments",
    "QInfer.C42_gamma_from_shapes",
    "QInfer.C42_beta_binomial_from_moments",
    "QInfer.C42_beta_binomial_from_shapes",
    "QInfer.C42_incomplete"
   ],
   "note": ""
  },
  {
   "property": "C43",
   "status": "proved",
   "theorems": [
    "QInfer.C43_constrained_row",
    "QInfer.C43_sample"
   ],
   "note": ""
  },
  {
   "property": "C44",
   "status": "proved",
   "theorems": [
    "QInfer.C44_product",
    "QInfer.C44_product_unequal",
    "QInfer.C44_product_arguments",
    "QInfer.C44_mixture",
    "QInfer.C44_mixture_no_rows",
    "QInfer.C44_mixture_init"
   ],
   "note": ""
  },
  {
   "property": "C45",
   "status": "proved",
   "theorems": [
    "QInfer.C45_ale",
    "QInfer.C45_mle",
    "QInfer.C45_range",
    "QInfer.C45_no_noise",
    "QInfer.C45_degenerate",
    "QInfer.C45_constructor"
   ],
   "note": "For sampling mode: likelihood in [0,1] and non-negative sample number and hedge; in general a result that is not NaN is in [0,1]."
  },
  {
   "property": "C46",
   "status": "partial",
   "theorems": [
    "QInfer.C46_random_walk",
    "QInfer.C46_random_walk_init",
    "QInfer.C46_gaussian_walk_partial",
    "QInfer.C46_negative_indices_walk_elsewhere",
    "QInfer.C46_long_negative_slice_fails",
    "QInfer.C46_slice_selects",
    "QInfer.C46_open_slice_rejected",
    "QInfer.C46_fixed_covariance_shape",
    "QInfer.C46_update_covariance",
    "QInfer.C46_transformed_walk_partial",
    "QInfer.C46_validity"
   ],
   "note": "Proved for fixed covariances and for plain index sets; false with a learned covariance for lists with negative indices (other parameters walk) and slices starting before the first parameter (every step raises), both proved with witnesses."
  },
  {
   "property": "C47",
   "status": "proved",
   "theorems": [
    "QInfer.C47_uniquify",
    "QInfer.C47_uniquify_of_nodup"
   ],
   "note": ""
  },
  {
   "property": "C48",
   "status": "proved",
   "theorems": [
    "QInfer.C48_allow_failures",
    "QInfer.C48_failures_raised",
    "QInfer.C48_bar_finished",
    "QInfer.C48_failure_changes_policy"
   ],
   "note": ""
  },
  {
   "property": "C49",
   "status": "partial",
   "theorems": [
    "QInfer.C49_restored_partial",
    "QInfer.C49_policy_in_block",
    "QInfer.C49_not_restored"
   ],
   "note": "Violated when the block raises (C49_not_restored); C49_restored_partial covers blocks that complete."
  },
  {
   "property": "C50",
   "status": "proved",
   "theorems": [
    "QInfer.C50_reset_all",
    "QInfer.C50_reset_both",
    "QInfer.C50_reset_only",
    "QInfer.C50_reset_count_without_weights"
   ],
   "note": ""
  },
  {
   "property": "C51",
   "status": "proved",
   "theorems": [
    "QInfer.C51_information_accumulates",
    "QInfer.C51_default_initial",
    "QInfer.C51_initial_array_shared",
    "QInfer.C51_failed_update_counts",
    "QInfer.C51_update_is_inherited",
    "QInfer.C51_requires_differentiable",
    "QInfer.C51_options",
    "QInfer.C51_same_inference"
   ],
   "note": "Includes that the caller's array is mutated and shared, that failed updates count, and which keyword options are dropped."
  },
  {
   "property": "C52",
   "status": "proved",
   "theorems": [
    "QInfer.C52_entropy_bounds"
   ],
   "note": ""
  },
  {
   "property": "C53",
   "status": "partial",
   "theorems": [
    "QInfer.C53_flag_not_forwarded",
    "QInfer.C53_flag_correct_partial",
    "QInfer.C53_flag_false"
   ],
   "note": "Violated: C53_flag_not_forwarded. The _partial theorem covers the remaining chains."
  },
  {
   "property": "C54",
   "status": "proved",
   "theorems": [
    "QInfer.C54_weights_nonneg",
    "QInfer.C54_clipping"
   ],
   "note": ""
  },
  {
   "property": "C55",
   "status": "proved",
   "theorems": [
    "QInfer.C55_resample_warnings",
    "QInfer.C55_no_data_warning",
    "QInfer.C55_divergences",
    "QInfer.C55_resampled_cloud",
    "QInfer.C55_small_ess_warning"
   ],
   "note": ""
  },
  {
   "property": "C56",
   "status": "proved",
   "theorems": [
    "QInfer.C56_fresh_updater",
    "QInfer.C56_resampler_choice"
   ],
   "note": ""
  },
  {
   "property": "C57",
   "status": "proved",
   "theorems": [
    "QInfer.C57_one_time_step",
    "QInfer.C57_steps_counted"
   ],
   "note": ""
  },
  {
   "property": "C58",
   "status": "proved",
   "theorems": [
    "QInfer.C58_update_timestep",
    "QInfer.C58_validity",
    "QInfer.C58_no_displacement",
    "QInfer.C58_negative_duration"
   ],
   "note": ""
  },
  {
   "property": "C59",
   "status": "proved",
   "theorems": [
    "QInfer.C59_pseudometric",
    "QInfer.C59_zero_iff",
    "QInfer.C59_sum",
    "QInfer.C59_rescaled",
    "QInfer.C59_rescaled_metric",
    "QInfer.C59_weighted",
    "QInfer.C59_zero_weights",
    "QInfer.C59_other_powers"
   ],
   "note": ""
  },
  {
   "property": "C60",
   "status": "proved",
   "theorems": [
    "QInfer.C60_first_distinct_pair",
    "QInfer.C60_gives_up",
    "QInfer.C60_collapsed_cloud"
   ],
   "note": ""
  },
  {
   "property": "C61",
   "status": "proved",
   "theorems": [
    "QInfer.C61_time",
    "QInfer.C61_record"
   ],
   "note": ""
  },
  {
   "property": "C62",
   "status": "proved",
   "theorems": [
    "QInfer.C62_chosen",
    "QInfer.C62_invalid"
   ],
   "note": ""
  },
  {
   "property": "C63",
   "status": "proved",
   "theorems": [
    "QInfer.C63_best_candidate"
   ],
   "note": ""
  },
  {
   "property": "C64",
   "status": "partial",
   "theorems": [
    "QInfer.C64_psd",
    "QInfer.C64_covariance",
    "QInfer.C64_one_parameter",
    "QInfer.C64_varying_outcomes_fail",
    "QInfer.C64_varying_outcomes_partial"
   ],
   "note": "With a varying number of outcomes the default implementation raises ValueError as soon as there are several parameters or parameter vectors (C64_varying_outcomes_fail); the summation claim is proved for one parameter and one vector (C64_varying_outcomes_partial)."
  },
  {
   "property": "C65",
   "status": "proved",
   "theorems": [
    "QInfer.C65_score_quadratic",
    "QInfer.C65_score_error",
    "QInfer.C65_score_limit",
    "QInfer.C65_zero_likelihood",
    "QInfer.C65_steps",
    "QInfer.C65_gradient_error",
    "QInfer.C65_gradient_quadratic",
    "QInfer.C65_gradient_steps"
   ],
   "note": ""
  },
  {
   "property": "C66",
   "status": "proved",
   "theorems": [
    "QInfer.C66_root",
    "QInfer.C66_error",
    "QInfer.C66_unique"
   ],
   "note": ""
  },
  {
   "property": "C67",
   "status": "proved",
   "theorems": [
    "QInfer.C67_density",
    "QInfer.C67_samples",
    "QInfer.C67_ginibre_redit",
    "QInfer.C67_ranks",
    "QInfer.C67_tensor_product_fails"
   ],
   "note": "TensorProductDistribution cannot be constructed at all (AttributeError, C67_tensor_product_fails); without a nonzero variate, in particular for rank zero, a Ginibre sample is NaN."
  },
  {
   "property": "C68",
   "status": "proved",
   "theorems": [
    "QInfer.C68_samples",
    "QInfer.C68_mean",
    "QInfer.C68_degenerate"
   ],
   "note": "Singular means are accepted but every sample raises ValueError; the maximally mixed mean gives NaN (C68_degenerate)."
  },
  {
   "property": "C69",
   "status": "proved",
   "theorems": [
    "QInfer.C69_projector",
    "QInfer.C69_refused"
   ],
   "note": ""
  },
  {
   "property": "C70",
   "status": "proved",
   "theorems": [
    "QInfer.C70_uniform",
    "QInfer.C70_ranges",
    "QInfer.C70_slanted",
    "QInfer.C70_constant",
    "QInfer.C70_discrete_one_axis",
    "QInfer.C70_in_range",
    "QInfer.C70_law"
   ],
   "note": "Finding: DiscreteUniformDistribution samples have one axis, so it cannot serve as a prior (C70_discrete_one_axis)."
  },
  {
   "property": "C71",
   "status": "partial",
   "theorems": [
    "QInfer.C71_normal_law",
    "QInfer.C71_normal_truncated",
    "QInfer.C71_normal_gradient",
    "QInfer.C71_mvn_moments",
    "QInfer.C71_mvn_gradient",
    "QInfer.C71_mvn_singular",
    "QInfer.C71_uniform_gradient_partial",
    "QInfer.C71_uniform_gradient_one_point",
    "QInfer.C71_lognormal"
   ],
   "note": "The uniform gradient is wrong for a single point: 12/(hi-lo)^2 in place of zero (C71_uniform_gradient_one_point); proved for other numbers of points (C71_uniform_gradient_partial). LogNormalDistribution uses mu as origin and sigma as factor, so the log-normal claim holds only for mu = 0, sigma = 1 (C71_lognormal)."
  },
  {
   "property": "C72",
   "status": "proved",
   "theorems": [
    "QInfer.C72_compactspace",
    "QInfer.C72_interpolated"
   ],
   "note": ""
  },
  {
   "property": "C73",
   "status": "proved",
   "theorems": [
    "QInfer.C73_haar",
    "QInfer.C73_haar_dimension",
    "QInfer.C73_single_sample",
    "QInfer.C73_ginibre",
    "QInfer.C73_hilbert_schmidt_abstract"
   ],
   "note": "Finding: HilbertSchmidtUniform does not define the abstract _sample and cannot be instantiated (C73_hilbert_schmidt_abstract)."
  },
  {
   "property": "C74",
   "status": "proved",
   "theorems": [
    "QInfer.C74_correlation",
    "QInfer.C74_no_spread",
    "QInfer.C74_units"
   ],
   "note": ""
  },
  {
   "property": "C75",
   "status": "partial",
   "theorems": [
    "QInfer.C75_partition",
    "QInfer.C75_moments_add_up",
    "QInfer.C75_one_cluster_partial",
    "QInfer.C75_metric",
    "QInfer.C75_total_variance_fails",
    "QInfer.C75_noise_warning"
   ],
   "note": "The cluster moments are not divided by the cluster weight, so the law of total variance fails for several clusters (C75_total_variance_fails); proved for one cluster (C75_one_cluster_partial). Partition and additivity of the moments are proved in full."
  },
  {
   "property": "C76",
   "status": "partial",
   "theorems": [
    "QInfer.C76_defined",
    "QInfer.C76_bandwidth_one_partial",
    "QInfer.C76_overestimates"
   ],
   "note": "The factor 1/delta stands outside the logarithm; the claim holds for bandwidth one (C76_bandwidth_one_partial) and fails for the normal kernel and every bandwidth below one (C76_overestimates)."
  },
  {
   "property": "C77",
   "status": "proved",
   "theorems": [
    "QInfer.C77_marginal",
    "QInfer.C77_resolution"
   ],
   "note": "Finding: with the default range the density integrates to one minus the weight of the lowest particle."
  },
  {
   "property": "C78",
   "status": "partial",
   "theorems": [
    "QInfer.C78_mesh",
    "QInfer.C78_values_partial",
    "QInfer.C78_transposed",
    "QInfer.C78_misplaced"
   ],
   "note": "The values are listed with the wrong parameter varying fastest (C78_transposed, C78_misplaced); proved that all densities are there, in which order (C78_values_partial)."
  },
  {
   "property": "C79",
   "status": "proved",
   "theorems": [
    "QInfer.C79_ellipsoid",
    "QInfer.C79_singular",
    "QInfer.C79_pce_weight",
    "QInfer.C79_pce_units",
    "QInfer.C79_pce_mean",
    "QInfer.C79_methods"
   ],
   "note": ""
  },
  {
   "property": "C80",
   "status": "partial",
   "theorems": [
    "QInfer.C80_no_failure",
    "QInfer.C80_ends",
    "QInfer.C80_flat_fails",
    "QInfer.C80_result",
    "QInfer.C80_encloses_iff",
    "QInfer.C80_touches",
    "QInfer.C80_nearly_encloses_partial",
    "QInfer.C80_progress",
    "QInfer.C80_misses",
    "QInfer.C80_matrix_is_inverse"
   ],
   "note": "Exact enclosure fails: it holds only if every point lies on the surface (C80_encloses_iff), never for three distinct points on a line (C80_misses). Proved up to an explicit factor (C80_nearly_encloses_partial). The matrix returned is the inverse of the documented one (C80_matrix_is_inverse)."
  },
  {
   "property": "C81",
   "status": "proved",
   "theorems": [
    "QInfer.C81_row_by_row",
    "QInfer.C81_succeeds_iff",
    "QInfer.C81_truncation",
    "QInfer.C81_field_values",
    "QInfer.C81_layouts_agree",
    "QInfer.C81_string_dtype",
    "QInfer.C81_scalar_type",
    "QInfer.C81_one_row"
   ],
   "note": "Finding: a dtype given as a string (such as 'float') is not recognised as a scalar type (C81_string_dtype)."
  },
  {
   "property": "C82",
   "status": "partial",
   "theorems": [
    "QInfer.C82_resampling_rule",
    "QInfer.C82_estimates_are_posterior",
    "QInfer.C82_estimate_within_cloud",
    "QInfer.C82_shape_errors",
    "QInfer.C82_precession_partial",
    "QInfer.C82_precession_range",
    "QInfer.C82_freq_min_ignored",
    "QInfer.C82_below_freq_min",
    "QInfer.C82_one_line",
    "QInfer.C82_malformed_data",
    "QInfer.C82_rb_prior"
   ],
   "note": "freq_min is ignored by the prior of simple_est_prec (C82_freq_min_ignored, C82_below_freq_min), so the posterior is proved for the range from zero (C82_precession_partial). A text file of one line fails (C82_one_line). For simple_est_rb the prior is covered (C82_rb_prior); the rest is C126. C82_resampling_rule says when the updater resamples."
  },
  {
   "property": "C83",
   "status": "proved",
   "theorems": [
    "QInfer.C83_promote",
    "QInfer.C83_shorten_right",
    "QInfer.C83_empty_axis",
    "QInfer.C83_no_arguments"
   ],
   "note": "Finding: on an axis on which some array is empty nothing is trimmed (C83_empty_axis)."
  },
  {
   "property": "C84",
   "status": "proved",
   "theorems": [
    "QInfer.C84_loss_formula",
    "QInfer.C84_prefix",
    "QInfer.C84_data",
    "QInfer.C84_resample_count",
    "QInfer.C84_truth",
    "QInfer.C84_loss_is_of_next_row",
    "QInfer.C84_static",
    "QInfer.C84_estimates",
    "QInfer.C84_true_column_is_stale"
   ],
   "note": "Finding: for a time-dependent model the column 'true' is from before the time step, 'est' and 'loss' from after it (C84_true_column_is_stale)."
  },
  {
   "property": "C85",
   "status": "proved",
   "theorems": [
    "QInfer.C85_timer",
    "QInfer.C85_timing",
    "QInfer.C85_timing_exception",
    "QInfer.C85_fields",
    "QInfer.C85_reads_back",
    "QInfer.C85_seconds",
    "QInfer.C85_boundaries"
   ],
   "note": "Findings: timing() does not stop its timer if the block raises (C85_timing_exception); exactly a day, hour or minute is written in the smaller unit (C85_boundaries)."
  },
  {
   "property": "C86",
   "status": "partial",
   "theorems": [
    "QInfer.C86_parameters",
    "QInfer.C86_constructor",
    "QInfer.C86_likelihood_entries",
    "QInfer.C86_equal_variances_partial",
    "QInfer.C86_posterior_equal_variances_partial",
    "QInfer.C86_total",
    "QInfer.C86_not_a_density",
    "QInfer.C86_wrong_posterior",
    "QInfer.C86_simulated",
    "QInfer.C86_simulated_law",
    "QInfer.C86_repetitions_share_noise"
   ],
   "note": "The density is not divided by the standard deviations, so the likelihood is not a density and posteriors over the variances are wrong (C86_not_a_density, C86_wrong_posterior); the formula and Bayes' rule are proved for equal variances. Repetitions share their normal variates (C86_repetitions_share_noise)."
  },
  {
   "property": "C87",
   "status": "proved",
   "theorems": [
    "QInfer.C87_counts",
    "QInfer.C87_law",
    "QInfer.C87_law_is_likelihood",
    "QInfer.C87_sample",
    "QInfer.C87_sample_default",
    "QInfer.C87_tuple_size",
    "QInfer.C87_simulate",
    "QInfer.C87_in_domain",
    "QInfer.C87_uninitialised"
   ],
   "note": "Findings: a tuple as size never works beyond one number (C87_tuple_size); the last probability is left uninitialised in simulate_experiment, so strict versions of numpy can reject it (C87_uninitialised). MultinomialModel.n_outcomes uses the name scipy that is not imported."
  },
  {
   "property": "C88",
   "status": "proved",
   "theorems": [
    "QInfer.C88_good",
    "QInfer.C88_amplified",
    "QInfer.C88_whole_power",
    "QInfer.C88_limit",
    "QInfer.C88_estimate",
    "QInfer.C88_mean_limit"
   ],
   "note": ""
  },
  {
   "property": "C89",
   "status": "partial",
   "theorems": [
    "QInfer.C89_information_adds",
    "QInfer.C89_fisher_partial",
    "QInfer.C89_scalar_fails"
   ],
   "note": "For wrapped models whose experiments are plain numbers fisher_information always fails because the records are passed on (C89_scalar_fails)."
  },
  {
   "property": "C90",
   "status": "partial",
   "theorems": [
    "QInfer.C90_cutoff_recursion",
    "QInfer.C90_settings_partial",
    "QInfer.C90_timestep",
    "QInfer.C90_dtypes"
   ],
   "note": "n_outcomes_cutoff cannot be assigned: its setter calls itself (C90_cutoff_recursion). representative_outcomes, which the settings are meant for, does not exist."
  },
  {
   "property": "C91",
   "status": "proved",
   "theorems": [
    "QInfer.C91_affinity",
    "QInfer.C91_always_undisturbed",
    "QInfer.C91_wrong_weight_decays",
    "QInfer.C91_estimate_converges",
    "QInfer.C91_converges"
   ],
   "note": "Expectations are over runs in which no update fails and none resamples; with resampling off and likelihoods not below machine precision these are all runs (C91_always_undisturbed)."
  },
  {
   "property": "C92",
   "status": "proved",
   "theorems": [
    "QInfer.C92_error_bars",
    "QInfer.C92_optimal",
    "QInfer.C92_unbiased",
    "QInfer.C92_coverage",
    "QInfer.C92_total"
   ],
   "note": "Expectations are over runs in which no update fails and none resamples; with resampling off and likelihoods not below machine precision these are all runs (C92_total)."
  },
  {
   "property": "C93",
   "status": "proved",
   "theorems": [
    "QInfer.C93_risk",
    "QInfer.C93_error",
    "QInfer.C93_information"
   ],
   "note": "Stated for update with check_for_resample=False and models whose parameters do not drift."
  },
  {
   "property": "C94",
   "status": "proved",
   "theorems": [
    "QInfer.C94_volume",
    "QInfer.C94_volume_of_form",
    "QInfer.C94_conventions",
    "QInfer.C94_arguments"
   ],
   "note": "sqrtm is a parameter, assumed to return the positive semidefinite root. Finding: ellipsoid_volume and in_ellipsoid give their argument A opposite meanings, so for the same A they agree only if its determinant is one (C94_conventions)."
  },
  {
   "property": "C95",
   "status": "partial",
   "theorems": [
    "QInfer.C95_arrays",
    "QInfer.C95_positive",
    "QInfer.C95_relative_error",
    "QInfer.C95_shared_figures",
    "QInfer.C95_units",
    "QInfer.C95_negative",
    "QInfer.C95_zero",
    "QInfer.C95_too_strict"
   ],
   "note": "Holds for positive numbers (up to the constant: 1.5 units of the next figure, stricter than documented, C95_too_strict) and zero; for negative first numbers the assertion holds whatever the second is (C95_negative)."
  },
  {
   "property": "C96",
   "status": "partial",
   "theorems": [
    "QInfer.C96_faithful_partial",
    "QInfer.C96_exact",
    "QInfer.C96_hidden_uncertainty",
    "QInfer.C96_hidden_value"
   ],
   "note": "Proved for uncertainties of at least one, values of at least ten printed without power of ten, and values near zero; 1.23 \u00b1 0.04 is printed as 1.2 \u00b1 0.0 (C96_hidden_uncertainty), 0.01 \u00b1 0.001 as 0.0 \u00b1 0.0 (C96_hidden_value)."
  },
  {
   "property": "C97",
   "status": "proved",
   "theorems": [
    "QInfer.C97_path_posterior",
    "QInfer.C97_every_run_has_paths"
   ],
   "note": "Without resampling: check_for_resample=False or resample_thresh <= 0. Error policy for zero weights."
  },
  {
   "property": "C98",
   "status": "proved",
   "theorems": [
    "QInfer.C98_consistent",
    "QInfer.C98_estimates",
    "QInfer.C98_log_total_likelihood",
    "QInfer.C98_unbiased"
   ],
   "note": "Without resampling (as C97); draws independent. Case: a phase growing at an unknown rate, with any prior."
  },
  {
   "property": "C99",
   "status": "proved",
   "theorems": [
    "QInfer.C99_operators",
    "QInfer.C99_group",
    "QInfer.C99_complete",
    "QInfer.C99_stabilizer",
    "QInfer.C99_state_record",
    "QInfer.C99_born"
   ],
   "note": "The eigenstates are a parameter with the contract of QuTiP (unit eigenvectors)."
  },
  {
   "property": "C100",
   "status": "partial",
   "theorems": [
    "QInfer.C100_process_partial",
    "QInfer.C100_unit",
    "QInfer.C100_product_stabilizer",
    "QInfer.C100_product_pauli_fails",
    "QInfer.C100_transposed",
    "QInfer.C100_statement_fails"
   ],
   "note": "Holds with the transpose of the preparation; for the preparation itself the statement is false (C100_statement_fails). With RandomPauliHeuristic ProductHeuristic always raises ValueError (C100_product_pauli_fails)."
  },
  {
   "property": "C101",
   "status": "partial",
   "theorems": [
    "QInfer.C101_hull",
    "QInfer.C101_in_hull",
    "QInfer.C101_nested",
    "QInfer.C101_ellipsoid_partial",
    "QInfer.C101_ellipsoid_misses",
    "QInfer.C101_ellipsoid_fails"
   ],
   "note": "Proved for hulls, with SciPy's ConvexHull and Delaunay as parameters satisfying their contract. For ellipsoids proved with an explicit inflation factor that tends to one with the tolerance; without it the statement is false (C101_ellipsoid_fails): six particles of which every ellipsoid returned leaves one out."
  },
  {
   "property": "C102",
   "status": "proved",
   "theorems": [
    "QInfer.C102_any_order",
    "QInfer.C102_same_as_plain",
    "QInfer.C102_precision",
    "QInfer.C102_range",
    "QInfer.C102_long_times",
    "QInfer.C102_validity"
   ],
   "note": "A work item is one store that depends on constant buffers; single precision is a rounding with the stated relative error, without overflow and underflow. The error grows with the phase, and C102_long_times shows that it can reach one at any precision."
  },
  {
   "property": "C103",
   "status": "proved",
   "theorems": [
    "QInfer.C103_exact",
    "QInfer.C103_normalised",
    "QInfer.C103_posterior",
    "QInfer.C103_mean",
    "QInfer.C103_underflow"
   ],
   "note": "For updates without resampling. A weight that underflows never returns, and then the result can be arbitrarily wrong (C103_underflow)."
  },
  {
   "property": "C104",
   "status": "proved",
   "theorems": [
    "QInfer.C104_raises",
    "QInfer.C104_law",
    "QInfer.C104_stream"
   ],
   "note": ""
  },
  {
   "property": "C105",
   "status": "proved",
   "theorems": [
    "QInfer.C105_parent_law",
    "QInfer.C105_run",
    "QInfer.C105_mean_noise",
    "QInfer.C105_cov_shrinks"
   ],
   "note": "The average loss of covariance by 1 - 1/n per resampling is a property of the algorithm that the documentation does not mention."
  },
  {
   "property": "C106",
   "status": "proved",
   "theorems": [
    "QInfer.C106_accepted",
    "QInfer.C106_refuted",
    "QInfer.C106_weight_vanishes",
    "QInfer.C106_impossible",
    "QInfer.C106_wrong_particles",
    "QInfer.C106_learns"
   ],
   "note": "For runs in which every update is accepted; C106_accepted gives a sufficient condition for that. Exact real arithmetic."
  },
  {
   "property": "C107",
   "status": "partial",
   "theorems": [
    "QInfer.C107_name_error",
    "QInfer.C107_default_fails",
    "QInfer.C107_cells_partial",
    "QInfer.C107_total_weight",
    "QInfer.C107_not_normalised"
   ],
   "note": "Violated by the code: every call raises NameError because `import qinfer.clustering` does not bind `clustering` (C107_name_error); with that repaired, the default secondary resampler raises AttributeError (C107_default_fails), and for any fitting one the weights are divided by the weight of the cluster instead of multiplied, so that with two or more clusters they add up to more than the number of clusters (C107_not_normalised). Proved: which particles go where, and when the call succeeds."
  },
  {
   "property": "C108",
   "status": "proved",
   "theorems": [
    "QInfer.C108_unbiased",
    "QInfer.C108_evidence",
    "QInfer.C108_prior"
   ],
   "note": "The law of the variates is that of independent uniform numbers; the kernel draws do not matter for h = 0. Data-independent sufficiency: as many stocks of variates as data. The result for a < 1 is not claimed (the Liu-West kernel keeps only mean and covariance, C105)."
  },
  {
   "property": "C109",
   "status": "partial",
   "theorems": [
    "QInfer.C109_valid_states",
    "QInfer.C109_not_instantiable",
    "QInfer.C109_likelihood_fails",
    "QInfer.C109_born_partial",
    "QInfer.C109_experiments",
    "QInfer.C109_rebit_partial",
    "QInfer.C109_multi_partial",
    "QInfer.C109_circuit_likelihood_partial",
    "QInfer.C109_circuit_simulation"
   ],
   "note": "Violated by the code: the four classes leave `domain` abstract and cannot be instantiated (C109_not_instantiable); their likelihoods call `Model.pr0_to_likelihood_array`, which does not exist (C109_likelihood_fails); with both repaired, several experiments give one column or ValueError (C109_experiments), and the circuit simulator uses weights (1 +- lambda)/2 instead of lambda and 1 - lambda (C109_circuit_simulation). Proved with the helper in place: Born's rule for one experiment, validity as positivity, rebits, several qubits, the circuit likelihood."
  },
  {
   "property": "C110",
   "status": "partial",
   "theorems": [
    "QInfer.C110_round_trip_partial",
    "QInfer.C110_several_samples",
    "QInfer.C110_not_trace_preserving"
   ],
   "note": "Violated by the code: for two or more samples to_qobj raises ValueError, since it reshapes the whole array in every turn (C110_several_samples), and with enforce_tp=False the first row is lost (C110_not_trace_preserving). Proved: the round trip of one sample of a Hermiticity- and trace-preserving map."
  },
  {
   "property": "C111",
   "status": "proved",
   "theorems": [
    "QInfer.C111_variance",
    "QInfer.C111_evidence",
    "QInfer.C111_mean",
    "QInfer.C111_converges"
   ],
   "note": ""
  },
  {
   "property": "C112",
   "status": "proved",
   "theorems": [
    "QInfer.C112_mixture",
    "QInfer.C112_product",
    "QInfer.C112_particles",
    "QInfer.C112_unshuffled"
   ],
   "note": ""
  },
  {
   "property": "C113",
   "status": "proved",
   "theorems": [
    "QInfer.C113_binomial",
    "QInfer.C113_multinomial"
   ],
   "note": ""
  },
  {
   "property": "C114",
   "status": "proved",
   "theorems": [
    "QInfer.C114_distance",
    "QInfer.C114_second_degree",
    "QInfer.C114_smooth"
   ],
   "note": ""
  },
  {
   "property": "C115",
   "status": "partial",
   "theorems": [
    "QInfer.C115_shape_partial",
    "QInfer.C115_possible",
    "QInfer.C115_discrete",
    "QInfer.C115_constructors",
    "QInfer.C115_qubits_only",
    "QInfer.C115_no_draws",
    "QInfer.C115_mixed_widths",
    "QInfer.C115_prior"
   ],
   "note": "The code violates the property (C115_discrete): DiscreteUniformDistribution.sample returns an array with one axis, so that products and constrained sums of it fail or have the wrong shape. C115_shape_partial is the property for all other classes and all nestings; mixtures need at least one draw (C115_no_draws) and components of equal width, which is not checked (C115_mixed_widths). A prior of a single variable is accepted by models with any number of parameters (C115_prior)."
  },
  {
   "property": "C116",
   "status": "partial",
   "theorems": [
    "QInfer.Fwd.C116_names",
    "QInfer.Fwd.C116_scale_partial",
    "QInfer.Fwd.C116_distance_partial",
    "QInfer.Fwd.C116_distance_raises",
    "QInfer.Fwd.C116_cost",
    "QInfer.Fwd.C116_time_step",
    "QInfer.Fwd.C116_hyper_walk",
    "QInfer.Fwd.C116_canonicalize"
   ],
   "note": "The code violates the property. Wrappers that add parameters (GaussianHyperparameterizedModel, GaussianRandomWalkModel with learned covariance) forward the shorter Q, so that losses always raise ValueError, and distances and Bayes risk do unless the stand-alone model has one parameter (C116_distance_raises); canonicalize receives the added columns (C116_canonicalize). experiment_cost is not forwarded, so a design no longer depends on the cost (C116_cost). Walks drop the time step of the wrapped model (C116_time_step). Hyperparameters around a one-parameter walk make the readout parameters walk too, around a larger one the time step raises (C116_hyper_walk). Proved: names and numbers of parameters for all nestings (C116_names), and the rest for nestings without added parameters (C116_scale_partial, C116_distance_partial)."
  },
  {
   "property": "C117",
   "status": "proved",
   "theorems": [
    "QInfer.C117_bound",
    "QInfer.C117_updater",
    "QInfer.C117_tracked",
    "QInfer.C117_adaptive",
    "QInfer.C117_precession"
   ],
   "note": "C117_bound is the bound for arbitrary strategies and estimates, C117_updater applies it to an updater driven by any heuristic, C117_tracked shows that current_bim estimates the information matrix without bias, C117_adaptive splits it into the increments adaptive_bim approximates, C117_precession is the resulting bound for precession with a normal prior."
  },
  {
   "property": "C118",
   "status": "proved",
   "theorems": [
    "QInfer.C118_normal",
    "QInfer.C118_ess",
    "QInfer.C118_interval"
   ],
   "note": "C118_normal is the central limit theorem for estimates, C118_ess the limit of the effective sample size, C118_interval the error bars computed from n_ess."
  },
  {
   "property": "C119",
   "status": "partial",
   "theorems": [
    "QInfer.C119_ellipse",
    "QInfer.C119_posterior_partial",
    "QInfer.C119_hull_partial",
    "QInfer.C119_default_true_state_raises",
    "QInfer.C119_states",
    "QInfer.C119_inside_circle",
    "QInfer.C119_default_axes_hide_z",
    "QInfer.C119_gell_mann",
    "QInfer.C119_prior"
   ],
   "note": "Proved for calls that pass a true state. Two parts of the claim fail: without true_state, the default, plot_rebit_posterior raises TypeError (C119_default_true_state_raises), and with the Pauli basis the default axes are X and Y, so that all rebits are drawn on one line (C119_default_axes_hide_z); in the Gell-Mann basis the default axes are Z and X (C119_gell_mann)."
  },
  {
   "property": "C120",
   "status": "proved",
   "theorems": [
    "QInfer.C120_error_bars",
    "QInfer.C120_coverage",
    "QInfer.C120_truth_survives",
    "QInfer.C120_confidence",
    "QInfer.C120_model_comparison",
    "QInfer.C120_log_total_likelihood"
   ],
   "note": "C120_error_bars and C120_coverage are C92 at any stopping time; C120_truth_survives and C120_confidence hold at all times at once; C120_model_comparison and C120_log_total_likelihood bound misleading evidence."
  },
  {
   "property": "C121",
   "status": "proved",
   "theorems": [
    "QInfer.C121_entropy_decreases",
    "QInfer.C121_experiments_needed",
    "QInfer.C121_identification"
   ],
   "note": "C121_entropy_decreases, C121_experiments_needed, C121_identification (Fano's inequality for adaptive runs with a stopping rule)."
  },
  {
   "property": "C122",
   "status": "partial",
   "theorems": [
    "QInfer.Nest.C122_constructors",
    "QInfer.Nest.C122_one_counter",
    "QInfer.Nest.C122_fields",
    "QInfer.Nest.C122_outcomes_partial",
    "QInfer.Nest.C122_reaches_model",
    "QInfer.Nest.C122_timestep_partial",
    "QInfer.Nest.C122_walk_timestep",
    "QInfer.Nest.C122_missing",
    "QInfer.Nest.C122_multinomial_timestep",
    "QInfer.Nest.C122_noise",
    "QInfer.Nest.C122_noise_multinomial"
   ],
   "note": "The code violates the claim: MultinomialModel passes the whole record to the time step of a model with scalar experiments (C122_multinomial_timestep); a model with normal noise reports two outcomes although its domain is the real line, and BinomialModel accepts it (C122_noise). Proved without these: C122_outcomes_partial, C122_timestep_partial; in full: C122_constructors, C122_one_counter, C122_fields, C122_reaches_model."
  },
  {
   "property": "C123",
   "status": "proved",
   "theorems": [
    "QInfer.C123_item",
    "QInfer.C123_item_list",
    "QInfer.C123_iteration",
    "QInfer.C123_number",
    "QInfer.C123_complex",
    "QInfer.C123_basis",
    "QInfer.C123_updater_table",
    "QInfer.C123_covariance_plot"
   ],
   "note": "Of the displayed texts, the names, the numbers and their order are modelled, not the HTML and LaTeX around them; the rounding of `format` is any rounding to the nearest integer. The drawing of the Hinton diagram by mpltools is not modelled."
  },
  {
   "property": "C124",
   "status": "proved",
   "theorems": [
    "QInfer.Nest.C124_columns",
    "QInfer.Nest.C124_single",
    "QInfer.Nest.C124_binomial",
    "QInfer.Nest.C124_multinomial",
    "QInfer.Nest.C124_distribution",
    "QInfer.Nest.C124_binomial_distorted",
    "QInfer.Nest.C124_multinomial_poisoned",
    "QInfer.Nest.C124_mle_place",
    "QInfer.Nest.C124_nan"
   ],
   "note": "The last two sentences of the statement are findings, proved as C124_multinomial_poisoned and C124_mle_place. GaussianHyperparameterizedModel is part of the model of the code (Model/Stack.lean) but not of these theorems, see C122 for its place among the wrappers."
  },
  {
   "property": "C125",
   "status": "proved",
   "theorems": [
    "QInfer.Nest.C125_law",
    "QInfer.Nest.C125_poisoned_inside",
    "QInfer.Nest.C125_mle_inside",
    "QInfer.Nest.C125_noise"
   ],
   "note": "The last sentence of the statement is a finding, proved as C125_poisoned_inside and C125_mle_inside. One outcome at a time; repetitions and arrays are in C28, C86, C87 and C115. The law of scipy's binomial sampler and of numpy's normal sampler is assumed."
  },
  {
   "property": "C126",
   "status": "proved",
   "theorems": [
    "QInfer.C126_posterior",
    "QInfer.C126_estimate_valid",
    "QInfer.C126_empty_range",
    "QInfer.C126_one_line",
    "QInfer.C126_succeeds"
   ],
   "note": "After a resampling the estimate depends on the resampler, which is arbitrary here (C18-C20 for Liu-West). Counts, lengths and numbers of sequences are whole numbers that are not negative."
  },
  {
   "property": "C127",
   "status": "proved",
   "theorems": [
    "QInfer.C127_releases",
    "QInfer.C127_imports",
    "QInfer.C127_check",
    "QInfer.C127_first_difference",
    "QInfer.C127_extension",
    "QInfer.C127_order",
    "QInfer.C127_prerelease",
    "QInfer.C127_mixed_raises",
    "QInfer.C127_trailing_zeros",
    "QInfer.C127_empty"
   ],
   "note": "LooseVersion of distutils is modelled from its source in the standard library; digits are the ASCII digits."
  },
  {
   "property": "C128",
   "status": "proved",
   "theorems": [
    "QInfer.C128_deferred",
    "QInfer.C128_rows",
    "QInfer.C128_same_results",
    "QInfer.C128_ipython",
    "QInfer.C128_bar_shows",
    "QInfer.C128_bar_raises",
    "QInfer.C128_closed"
   ],
   "note": "Engines that raise when a trial is submitted are not modelled. ImportError is represented by the catch-all exception of the model."
  },
  {
   "property": "C129",
   "status": "proved",
   "theorems": [
    "QInfer.C129_mean",
    "QInfer.C129_never_overstates",
    "QInfer.C129_total",
    "QInfer.C129_total_exact",
    "QInfer.C129_log_total_likelihood"
   ],
   "note": "Outcomes from a finite set. Likelihoods add up to one and are nonnegative at every parameter vector. Runs in which an update raises end there."
  },
  {
   "property": "C130",
   "status": "proved",
   "theorems": [
    "QInfer.C130_posterior",
    "QInfer.C130_mixed",
    "QInfer.C130_rate",
    "QInfer.C130_estimates",
    "QInfer.C130_unlikely_data"
   ],
   "note": "Exact arithmetic. The right likelihoods lie between zero and one. All updates with check_for_resample=False."
  },
  {
   "property": "C131",
   "status": "proved",
   "theorems": [
    "QInfer.C131_draws",
    "QInfer.C131_later_draws",
    "QInfer.C131_limit",
    "QInfer.C131_two_parts",
    "QInfer.C131_unbiased"
   ],
   "note": "Variates of np.random.random are independent and uniform. Exact arithmetic. The handed-over updater is not changed afterwards."
  },
  {
   "property": "C132",
   "status": "proved",
   "theorems": [
    "QInfer.C132_updates",
    "QInfer.C132_rearrangements",
    "QInfer.C132_moments",
    "QInfer.C132_bayes_risk",
    "QInfer.C132_information_gain",
    "QInfer.C132_resampling_differs"
   ],
   "note": "Exact arithmetic. Policy reset draws a new cloud of the old size and is excluded."
  },
  {
   "property": "C133",
   "status": "proved",
   "theorems": [
    "QInfer.C133_whole_run",
    "QInfer.C133_run_is_update",
    "QInfer.C133_history",
    "QInfer.C133_moments",
    "QInfer.C133_scale_matrix",
    "QInfer.C133_distance_differs",
    "QInfer.C133_liu_west",
    "QInfer.C133_liu_west_setup",
    "QInfer.C133_liu_west_run",
    "QInfer.C133_liu_west_law",
    "QInfer.C133_seeds_differ"
   ],
   "note": "Exact arithmetic. reset of single parameters (only_params) is left out. C133_whole_run has no time step and no postselection. A collapsed cloud is an exception (C162)."
  },
  {
   "property": "C134",
   "status": "proved",
   "theorems": [
    "QInfer.C134_risk",
    "QInfer.C134_information",
    "QInfer.C134_repetitions",
    "QInfer.C134_repetitions_information",
    "QInfer.C134_adaptive_runs",
    "QInfer.C134_fixed_runs",
    "QInfer.C134_more_data",
    "QInfer.C134_noisy_coin",
    "QInfer.C134_dephasing",
    "QInfer.C134_informative_noise"
   ],
   "note": "Exact arithmetic. Outcome probabilities must be zero or not below the float spacing, where hypothetical_update stops normalising. The statements about runs are for updaters that do not resample, truths drawn from the initial cloud, and likelihoods not below the float spacing."
  },
  {
   "property": "C135",
   "status": "proved",
   "theorems": [
    "QInfer.C135_redit_rotation",
    "QInfer.C135_redit_mean",
    "QInfer.C135_gadfli",
    "QInfer.C135_ginibre",
    "QInfer.C135_haar",
    "QInfer.C135_haar_is_ginibre",
    "QInfer.C135_components",
    "QInfer.C135_haar_components",
    "QInfer.C135_moments",
    "QInfer.C135_ball"
   ],
   "note": "Exact arithmetic; the numbers of np.random.randn are independent standard normal variates; the QR routine returns a unitary and an upper triangular factor. The draws that give NaN have probability zero."
  },
  {
   "property": "C136",
   "status": "proved",
   "theorems": [
    "QInfer.C136_spread",
    "QInfer.C136_schedules",
    "QInfer.C136_durations",
    "QInfer.C136_time_field",
    "QInfer.C136_estimates",
    "QInfer.C136_estimates_fixed",
    "QInfer.C136_transformed",
    "QInfer.C136_any_steps"
   ],
   "note": "Exact arithmetic; independent variates. With a learned covariance for the index sets of C46_gaussian_walk_partial (no negative list entries, no slices starting before the first parameter), for which the walk goes where it should. Weights are arbitrary but fixed during the run, no resampling."
  },
  {
   "property": "C137",
   "status": "proved",
   "theorems": [
    "QInfer.C137_second_moments",
    "QInfer.C137_covariance",
    "QInfer.C137_purity",
    "QInfer.C137_purity_rank",
    "QInfer.C137_high_rank",
    "QInfer.C137_rank",
    "QInfer.C137_bloch",
    "QInfer.C137_prior"
   ],
   "note": "Exact arithmetic; the numbers of np.random.randn are independent standard normal variates. rand_dm_ginibre of QuTiP (GinibreDistribution) is not part of the repository."
  },
  {
   "property": "C138",
   "status": "proved",
   "theorems": [
    "QInfer.C138_counts",
    "QInfer.C138_wrapped",
    "QInfer.C138_connected",
    "QInfer.C138_loaded",
    "QInfer.C138_options",
    "QInfer.C138_clear_cache",
    "QInfer.C138_nested",
    "QInfer.C138_nested_default"
   ],
   "note": "An exception raised on an engine is one of the view's own classes. The deprecated _serial_model property and the unused attribute _Q are left out; engines receive copies of the wrapped model, as pickling makes them."
  },
  {
   "property": "C139",
   "status": "proved",
   "theorems": [
    "QInfer.C139_aliases",
    "QInfer.C139_never_told_apart",
    "QInfer.C139_short_times",
    "QInfer.C139_two_times",
    "QInfer.C139_three_times",
    "QInfer.C139_sparse_times",
    "QInfer.C139_inversion",
    "QInfer.C139_decoherence",
    "QInfer.C139_rb_two_lengths",
    "QInfer.C139_rb_three_lengths",
    "QInfer.C139_rb_degenerate",
    "QInfer.C139_rb_interleaved",
    "QInfer.C139_noisy_coin",
    "QInfer.C139_repetitions",
    "QInfer.C139_ratio_kept",
    "QInfer.C139_frequency_learnt"
   ],
   "note": "Exact real arithmetic. The statements on weights are for runs that are accepted and do not resample (as C106)."
  },
  {
   "property": "C140",
   "status": "proved",
   "theorems": [
    "QInfer.C140_criterion",
    "QInfer.C140_too_few",
    "QInfer.C140_just_enough",
    "QInfer.C140_paulis",
    "QInfer.C140_learnt",
    "QInfer.C140_stabilizers"
   ],
   "note": "Exact arithmetic. The statement on weights is for runs that are accepted and do not resample (as C106)."
  },
  {
   "property": "C141",
   "status": "proved",
   "theorems": [
    "QInfer.C141_evidence",
    "QInfer.C141_rate",
    "QInfer.C141_better_wins",
    "QInfer.C141_truth_wins",
    "QInfer.C141_occam"
   ],
   "note": "For runs in which every update is accepted; C106_accepted gives a sufficient condition for that. Exact real arithmetic."
  },
  {
   "property": "C142",
   "status": "proved",
   "theorems": [
    "QInfer.C142_best_fit",
    "QInfer.C142_certainty",
    "QInfer.C142_ess",
    "QInfer.C142_resamples",
    "QInfer.C142_never"
   ],
   "note": "For runs in which every update is accepted; C106_accepted gives a sufficient condition for that. Exact real arithmetic."
  },
  {
   "property": "C143",
   "status": "proved",
   "theorems": [
    "QInfer.C143_resampled",
    "QInfer.C143_posterior",
    "QInfer.C143_mean",
    "QInfer.C143_updater",
    "QInfer.C143_precession",
    "QInfer.C143_coin"
   ],
   "note": "C143_updater is for updaters without resampling and runs in which no datum is less probable than machine precision given those before; predicted_of_bound gives a sufficient condition. C143_resampled is for LiuWestResampler with a = 1. Exact real arithmetic. The number of particles that suffices depends on the number of data. Priors on unbounded parameter sets are not covered."
  },
  {
   "property": "C144",
   "status": "proved",
   "theorems": [
    "QInfer.C144_saved",
    "QInfer.C144_place",
    "QInfer.C144_first",
    "QInfer.C144_elsewhere"
   ],
   "note": "The disk is a function from paths to directories and files; permissions, links and other processes are not modelled. The format of the file is a parameter: the parser has to read back what it writes. SafeConfigParser is taken to exist, as it does before Python 3.12."
  },
  {
   "property": "C145",
   "status": "proved",
   "theorems": [
    "QInfer.C145_weights",
    "QInfer.C145_totals",
    "QInfer.C145_error"
   ],
   "note": "Exact arithmetic. The updater's own likelihoods are not below machine precision. All updates with check_for_resample=False."
  },
  {
   "property": "C146",
   "status": "proved",
   "theorems": [
    "QInfer.C146_explore",
    "QInfer.C146_posterior",
    "QInfer.C146_mean",
    "QInfer.C146_updater",
    "QInfer.C146_rules",
    "QInfer.C146_explore_rules",
    "QInfer.C146_precession"
   ],
   "note": "Exact arithmetic. C146_posterior and C146_mean are about the exact posterior by Bayes' rule, C146_updater about the modelled updater fed with the data. In C146_updater the data are fixed before the particles are drawn, so experiments may depend on the data but not on the particles."
  },
  {
   "property": "C147",
   "status": "proved",
   "theorems": [
    "QInfer.C147_limits",
    "QInfer.C147_learns",
    "QInfer.C147_leaders",
    "QInfer.C147_loop"
   ],
   "note": "Exact arithmetic. Unlike in C106 and C146 no experiment needs a positive share of the run. C147_loop builds such data from any heuristic that sees the updater after the data so far, so the hypotheses are met by closed loops; the case beside it is an updater that asks after its own leading particle."
  },
  {
   "property": "C148",
   "status": "proved",
   "theorems": [
    "QInfer.C148_pairs",
    "QInfer.C148_chance",
    "QInfer.C148_learns"
   ],
   "note": "Exact arithmetic; independent uniform variates. The experiments are the finitely many that PGH can make from the cloud and a fallback. That the experiment of a pair tells the pair apart is a property of the model; the case beside the theorem proves it for three frequencies with inversion, where the phase left is always one radian."
  },
  {
   "property": "C149",
   "status": "proved",
   "theorems": [
    "QInfer.C149_independent",
    "QInfer.C149_refuted",
    "QInfer.C149_differences",
    "QInfer.C149_learnt",
    "QInfer.C149_survives",
    "QInfer.C149_refuted_iff",
    "QInfer.C149_sparse_aliases",
    "QInfer.C149_frozen"
   ],
   "note": "Exact arithmetic, independent outcomes. The cases beside the theorems use the times 2 pi 2^t: with frequency 0 as the truth, frequency 1/3 is refuted and frequency 1 is not. In floating point the times of a long run lose their fractional periods, which is outside the model."
  },
  {
   "property": "C150",
   "status": "proved",
   "theorems": [
    "QInfer.C150_frequencies",
    "QInfer.C150_drawn",
    "QInfer.C150_learnt",
    "QInfer.C150_sparse_times"
   ],
   "note": "Exact arithmetic, independent outcomes. C149_sparse_aliases shows that the exceptions exist for whole-number bases. The case beside the theorem is three uniformly drawn frequencies with the default times."
  },
  {
   "property": "C151",
   "status": "proved",
   "theorems": [
    "QInfer.C151_heuristics",
    "QInfer.C151_chance",
    "QInfer.C151_learns"
   ],
   "note": "Exact arithmetic; independent uniform variates for the choice of the member, for the member and for the outcome. The case beside the theorem is PGH with probability 1/100 and a constant heuristic otherwise."
  },
  {
   "property": "C152",
   "status": "proved",
   "theorems": [
    "QInfer.C152_chance",
    "QInfer.C152_learns",
    "QInfer.C152_states"
   ],
   "note": "Exact arithmetic; the k draws of the base heuristic and the outcome are independent. That the Pauli and stabilizer measurements determine every state is C140. The case beside the theorem is a qubit with three measurements and k = 3."
  },
  {
   "property": "C153",
   "status": "proved",
   "theorems": [
    "QInfer.C153_forecast",
    "QInfer.C153_chance",
    "QInfer.C153_count",
    "QInfer.C153_right",
    "QInfer.C153_log_loss"
   ],
   "note": "Exact arithmetic; finitely many experiments. The chance concerns runs in which no update raises; the case beside the theorem (any three particles, also equal ones, any heuristic) accepts every run. Forecasts for experiments that are not done need not become right."
  },
  {
   "property": "C154",
   "status": "proved",
   "theorems": [
    "QInfer.C154_mean",
    "QInfer.C154_covariance",
    "QInfer.C154_variance",
    "QInfer.C154_ess",
    "QInfer.C154_nearest",
    "QInfer.C154_variance_lost",
    "QInfer.C154_exact"
   ],
   "note": "No underflow or overflow, no fused operations; weights are taken as given and sum to one exactly (C103 bounds their own error). That a covariance relative to the second moment is all one gets is the code's choice to subtract the product of the means (distributions.py 384-390); it warns when an eigenvalue is negative, not when digits are lost."
  },
  {
   "property": "C155",
   "status": "proved",
   "theorems": [
    "QInfer.C155_exact",
    "QInfer.C155_lengths",
    "QInfer.C155_sorted",
    "QInfer.C155_sample",
    "QInfer.C155_liu_west",
    "QInfer.C155_simulate",
    "QInfer.C155_liu_west_fails",
    "QInfer.C155_impossible_outcome"
   ],
   "note": "No underflow. np.cumsum adds from left to right. That the resampler lacks the clipping sample has (np.minimum at distributions.py 330-333) and that argmax of an all-False row is 0 are findings; each needs a variate at or above the last cumulative sum, of probability about 2^-53 per draw in the cases shown."
  },
  {
   "property": "C156",
   "status": "proved",
   "theorems": [
    "QInfer.C156_checks",
    "QInfer.C156_unlikely",
    "QInfer.C156_repaired",
    "QInfer.C156_parts",
    "QInfer.C156_run",
    "QInfer.C156_chance",
    "QInfer.C156_update"
   ],
   "note": "No underflow, no NaN. Locations do not move between data (models without update_timestep), and a = 1, so that new locations are copies; for a < 1 the new locations would carry errors of their own. C156_update links the step without rounding to the exact model's update."
  },
  {
   "property": "C157",
   "status": "proved",
   "theorems": [
    "QInfer.C157_exact",
    "QInfer.C157_region",
    "QInfer.C157_digits"
   ],
   "note": "No underflow. np.argsort only compares and is exact; np.cumsum adds from left to right."
  },
  {
   "property": "C158",
   "status": "proved",
   "theorems": [
    "QInfer.C158_record",
    "QInfer.C158_log_total",
    "QInfer.C158_feed"
   ],
   "note": "Restrictions of C156: no underflow, no NaN, no motion of the particles, resampling by copies. The depth of the sum of logarithms enters the last error term."
  },
  {
   "property": "C159",
   "status": "proved",
   "theorems": [
    "QInfer.C159_default",
    "QInfer.C159_linear",
    "QInfer.C159_units",
    "QInfer.C159_units_added",
    "QInfer.C159_scale"
   ],
   "note": "Costs are not negative; the Bayes risk is any function of the experiments. The optimiser is not modelled."
  },
  {
   "property": "C160",
   "status": "proved",
   "theorems": [
    "QInfer.C160_move",
    "QInfer.C160_resampler",
    "QInfer.C160_valid",
    "QInfer.C160_cloud",
    "QInfer.C160_copy"
   ],
   "note": "No underflow. The square root of the covariance is what sqrtm_psd returns; its own error is not bounded here (C154 bounds the error of the covariance)."
  },
  {
   "property": "C161",
   "status": "proved",
   "theorems": [
    "QInfer.C161_location",
    "QInfer.C161_root",
    "QInfer.C161_displacement",
    "QInfer.C161_rounded"
   ],
   "note": "eigh is taken to return an exact eigenbasis of the matrix it gets; in C161_location the entries of the square root may be off by rho. No underflow."
  },
  {
   "property": "C162",
   "status": "proved",
   "theorems": [
    "QInfer.C162_warns",
    "QInfer.C162_reseeded",
    "QInfer.C162_units",
    "QInfer.C162_covariance",
    "QInfer.C162_law",
    "QInfer.C162_spread",
    "QInfer.C162_mean"
   ],
   "note": "Exact arithmetic; without postselection. sqrtm_psd returns the positive square root of positive matrices (C66)."
  }
 ]
}