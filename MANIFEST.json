{
 "claims": [
  {
   "property": "C01",
   "status": "proved",
   "theorems": [
    "Verif.Props.C01_ids_and_arcs_unique",
    "Verif.Props.C01_ids_never_reused",
    "Verif.Props.C01_add_arc"
   ],
   "note": ""
  },
  {
   "property": "C02",
   "status": "proved",
   "theorems": [
    "Verif.Props.C02_normalize_divides",
    "Verif.Props.C02_sums_to_one",
    "Verif.Props.C02_idempotent",
    "Verif.Props.C02_zero_sum_fails"
   ],
   "note": ""
  },
  {
   "property": "C03",
   "status": "proved",
   "theorems": [
    "Verif.Props.C03_replace_state"
   ],
   "note": ""
  },
  {
   "property": "C04",
   "status": "partial",
   "theorems": [
    "Verif.Props.C04_self_loop_fails"
   ],
   "note": "The code violates the claim: replacing a state with a self-loop always raises KeyError (proved for every graph and replacement); the claim without self-loop is C03."
  },
  {
   "property": "C05",
   "status": "partial",
   "theorems": [
    "Verif.Props.C05_distributions_partial",
    "Verif.Props.C05_distribution_or_nan_partial",
    "Verif.Props.C05_zero_weight_arc"
   ],
   "note": "Proved for positive weights; with zero-weight arcs the claim is false (negation C05_zero_weight_arc): the vectors are then distributions or NaN."
  },
  {
   "property": "C06",
   "status": "proved",
   "theorems": [
    "Verif.Props.C06_row_normalised",
    "Verif.Props.C06_other_rows_unchanged",
    "Verif.Props.C06_self_loop_too_large"
   ],
   "note": ""
  },
  {
   "property": "C07",
   "status": "partial",
   "theorems": [
    "Verif.Props.C07_weight_of_path_partial",
    "Verif.Props.C07_sum_over_paths_partial",
    "Verif.Props.C07_no_chain_partial",
    "Verif.Props.C07_first_weight_lost",
    "Verif.Props.C07_second_path_lost"
   ],
   "note": "The code violates the claim (negations C07_first_weight_lost, C07_second_path_lost); proved when paths between non-emitting states are unique and the second and last weights of each path agree, in particular without chains of non-emitting states."
  },
  {
   "property": "C08",
   "status": "proved",
   "theorems": [
    "Verif.Props.C08_state_emits_own_pdf",
    "Verif.Props.C08_duplicate_unit_shifts",
    "Verif.Props.C08_error_branches"
   ],
   "note": "For distinct unit names and successful commands; C08_duplicate_unit_shifts shows that the names must be distinct. The creation of the emission densities is not modelled."
  },
  {
   "property": "C09",
   "status": "proved",
   "theorems": [
    "Verif.Props.C09_paths",
    "Verif.Props.C09_unknown_unit"
   ],
   "note": "For inventories of well-formed HMMs (spec WellFormed: distinct states, arcs between states, positive weights, start and end present). C09_unknown_unit covers the KeyError branch. Paths of the graph which is compiled; the compiled matrices are related to graph paths by C05-C07."
  },
  {
   "property": "C10",
   "status": "proved",
   "theorems": [
    "Verif.Props.C10_forward_is_path_sum"
   ],
   "note": ""
  },
  {
   "property": "C11",
   "status": "proved",
   "theorems": [
    "Verif.Props.C11_state_posterior_is_marginal",
    "Verif.Props.C11_state_posteriors_sum_to_one",
    "Verif.Props.C11_evidence_constant",
    "Verif.Props.C11_zero_evidence_is_nan"
   ],
   "note": ""
  },
  {
   "property": "C12",
   "status": "proved",
   "theorems": [
    "Verif.Props.C12_transition_posterior_is_marginal",
    "Verif.Props.C12_transition_posteriors_marginalise",
    "Verif.Props.C12_zero_evidence_is_zero"
   ],
   "note": ""
  },
  {
   "property": "C13",
   "status": "proved",
   "theorems": [
    "Verif.Props.C13_best_path_optimal",
    "Verif.Props.C13_best_path_length"
   ],
   "note": ""
  },
  {
   "property": "C14",
   "status": "proved",
   "theorems": [
    "Verif.Props.C14_best_path_feasible"
   ],
   "note": ""
  },
  {
   "property": "C15",
   "status": "partial",
   "theorems": [
    "Verif.Props.C15_success_iff",
    "Verif.Props.C15_result_partial",
    "Verif.Props.C15_wrong_length_raises",
    "Verif.Props.C15_single_state_broadcasts",
    "Verif.Props.C15_fails",
    "Verif.Props.C15_viterbi_fails"
   ],
   "note": "The code violates the claim (C15_fails, C15_viterbi_fails): pc_llhs is indexed by state numbers, so a path through a state number >= number of frames raises IndexError; C15_success_iff characterises success, C15_result_partial the result. C15_wrong_length_raises: a path whose length differs from the number of frames raises, except a path of one state, which is silently broadcast over all frames (C15_single_state_broadcasts)."
  },
  {
   "property": "C16",
   "status": "proved",
   "theorems": [
    "Verif.Props.C16_phones",
    "Verif.Props.C16_per_frame",
    "Verif.Props.C16_left_to_right",
    "Verif.Props.C16_errors"
   ],
   "note": ""
  },
  {
   "property": "C17",
   "status": "partial",
   "theorems": [
    "Verif.Props.C17_single_state_repeated",
    "Verif.Props.C17_repetition_lost"
   ],
   "note": "The code violates the claim (C17_repetition_lost; C17_single_state_repeated shows it for every repetition of a single-state phone)."
  },
  {
   "property": "C18",
   "status": "partial",
   "theorems": [
    "Verif.Props.C18_all_but_end_state_partial",
    "Verif.Props.C18_single_state_phone_is_zero",
    "Verif.Props.C18_mass_lost"
   ],
   "note": "The code violates the claim (C18_mass_lost, C18_single_state_phone_is_zero): the end state of each phone is left out; proved that exactly that state is missing."
  },
  {
   "property": "C19",
   "status": "proved",
   "theorems": [
    "Verif.Props.C19_refresh",
    "Verif.Props.C19_history",
    "Verif.Props.C19_categorical_rows"
   ],
   "note": ""
  },
  {
   "property": "C20",
   "status": "partial",
   "theorems": [
    "Verif.Props.C20_single_state_loop",
    "Verif.Props.C20_fails",
    "Verif.Props.C20_partial"
   ],
   "note": "The code violates the claim for single-state phones (C20_fails, C20_single_state_loop); proved for states that are not phone starts."
  },
  {
   "property": "C21",
   "status": "proved",
   "theorems": [
    "Verif.Props.C21_counts_are_expected_entries",
    "Verif.Props.C21_counts_nonneg",
    "Verif.Props.C21_training_statistics",
    "Verif.Props.C21_stale_cache",
    "Verif.Props.C21_weight_update"
   ],
   "note": ""
  },
  {
   "property": "C22",
   "status": "partial",
   "theorems": [
    "Verif.Props.C22_bigram_entries",
    "Verif.Props.C22_bigram_installs_transpose",
    "Verif.Props.C22_fails",
    "Verif.Props.C22_symmetric_partial",
    "Verif.Props.C22_stickbreaking_set",
    "Verif.Props.C22_bigram_counts",
    "Verif.Props.C22_bigram_refit"
   ],
   "note": "The code violates the claim for CategoricalSet (C22_fails, C22_bigram_installs_transpose); holds for symmetric weights and for stick-breaking sets."
  },
  {
   "property": "C23",
   "status": "proved",
   "theorems": [
    "Verif.Props.C23_job_is_total",
    "Verif.Props.C23_order_irrelevant",
    "Verif.Props.C23_partition_irrelevant",
    "Verif.Props.C23_no_job_fails"
   ],
   "note": ""
  },
  {
   "property": "C24",
   "status": "proved",
   "theorems": [
    "Verif.Props.C24_add_ok_iff",
    "Verif.Props.C24_add_datasize"
   ],
   "note": ""
  },
  {
   "property": "C25",
   "status": "proved",
   "theorems": [
    "Verif.Props.C25_backward_scales",
    "Verif.Props.C25_full_data",
    "Verif.Props.C25_minibatch_unbiased",
    "Verif.Props.C25_backward_idempotent",
    "Verif.Props.C25_backward_empty_fails"
   ],
   "note": ""
  },
  {
   "property": "C26",
   "status": "proved",
   "theorems": [
    "Verif.Props.C26_update_convex",
    "Verif.Props.C26_full_step"
   ],
   "note": ""
  },
  {
   "property": "C27",
   "status": "proved",
   "theorems": [
    "Verif.Props.C27_geometric",
    "Verif.Props.C27_converges"
   ],
   "note": ""
  },
  {
   "property": "C28",
   "status": "proved",
   "theorems": [
    "Verif.Props.C28_step_updates_one_group",
    "Verif.Props.C28_round_robin"
   ],
   "note": ""
  },
  {
   "property": "C29",
   "status": "proved",
   "theorems": [
    "Verif.Props.C29_resume_transparent",
    "Verif.Props.C29_update_command"
   ],
   "note": ""
  },
  {
   "property": "C30",
   "status": "proved",
   "theorems": [
    "Verif.Props.C30_no_stats_returns_to_prior",
    "Verif.Props.C30_no_leak"
   ],
   "note": ""
  },
  {
   "property": "C31",
   "status": "partial",
   "theorems": [
    "Verif.Props.C31_dirichlet_stays_valid",
    "Verif.Props.C31_normalgamma_stays_valid",
    "Verif.Props.C31_isonormalgamma_stays_valid",
    "Verif.Props.C31_gamma_stays_valid",
    "Verif.Props.C31_gamma_model_actual_rate",
    "Verif.Props.C31_gamma_model_negation",
    "Verif.Props.C31_normalwishart_stays_valid"
   ],
   "note": "Proved for Dirichlet, Gamma (as a parameter), Normal-Gamma and isotropic Normal-Gamma. The code violates the claim for the Gamma model: accumulate negates already negated statistics, so the posterior rate is rate0 - sum x (negation proved with a witness)."
  },
  {
   "property": "C32",
   "status": "proved",
   "theorems": [
    "Verif.Props.C32_dirichlet_roundtrip",
    "Verif.Props.C32_dirichlet_roundtrip_converse",
    "Verif.Props.C32_dirichlet_error_iff"
   ],
   "note": ""
  },
  {
   "property": "C33",
   "status": "proved",
   "theorems": [
    "Verif.Props.C33_dirichlet_update_adds_counts",
    "Verif.Props.C33_dirichlet_update_order"
   ],
   "note": ""
  },
  {
   "property": "C34",
   "status": "proved",
   "theorems": [
    "Verif.Props.C34_gamma_roundtrip",
    "Verif.Props.C34_gamma_roundtrip_converse",
    "Verif.Props.C34_gamma_roundtrip_dim"
   ],
   "note": ""
  },
  {
   "property": "C35",
   "status": "proved",
   "theorems": [
    "Verif.Props.C35_normalgamma_roundtrip",
    "Verif.Props.C35_normalgamma_roundtrip_converse",
    "Verif.Props.C35_normalgamma_textbook_update",
    "Verif.Props.C35_normalgamma_update_order"
   ],
   "note": ""
  },
  {
   "property": "C36",
   "status": "proved",
   "theorems": [
    "Verif.Props.C36_isonormalgamma_roundtrip",
    "Verif.Props.C36_isonormalgamma_roundtrip_converse",
    "Verif.Props.C36_isonormalgamma_conjugate_update",
    "Verif.Props.C36_isonormalgamma_update_order"
   ],
   "note": ""
  },
  {
   "property": "C37",
   "status": "proved",
   "theorems": [
    "Verif.Props.C37_normalwishart_roundtrip",
    "Verif.Props.C37_natural_error_iff",
    "Verif.Props.C37_normalwishart_converse"
   ],
   "note": ""
  },
  {
   "property": "C38",
   "status": "partial",
   "theorems": [
    "Verif.Props.C38_normaldiag_actual",
    "Verif.Props.C38_negation_never_roundtrips",
    "Verif.Props.C38_normaldiag_ratio_partial"
   ],
   "note": "The code violates the claim: from_natural_parameters returns wrong values; C38_negation_never_roundtrips proves no distribution round-trips, C38_normaldiag_ratio_partial what is preserved."
  },
  {
   "property": "C39",
   "status": "proved",
   "theorems": [
    "Verif.Props.C39_kl_nonneg",
    "Verif.Props.C39_kl_zero_iff",
    "Verif.Props.C39_dirichlet_single"
   ],
   "note": "Zero iff equal requires at least two categories for the Dirichlet (C39_dirichlet_single is the boundary case)."
  },
  {
   "property": "C40",
   "status": "proved",
   "theorems": [
    "Verif.Props.C40_kl_decision",
    "Verif.Props.C40_kl_refuses_sizes"
   ],
   "note": ""
  },
  {
   "property": "C41",
   "status": "proved",
   "theorems": [
    "Verif.Props.C41_expected_log_likelihood_eq",
    "Verif.Props.C41_expected_log_weights_subnormalised",
    "Verif.Props.C41_mean_weights"
   ],
   "note": ""
  },
  {
   "property": "C42",
   "status": "partial",
   "theorems": [
    "Verif.Props.C42_categorical_log_prob",
    "Verif.Props.C42_diagonal_log_density",
    "Verif.Props.C42_isotropic_log_density",
    "Verif.Props.C42_gamma_partial",
    "Verif.Props.C42_gamma_negation",
    "Verif.Props.C42_fixed_partial",
    "Verif.Props.C42_full_log_density"
   ],
   "note": "Proved for the categorical, diagonal, isotropic and full-covariance normal likelihoods. The code violates the claim for the Gamma likelihood (C42_gamma_negation: sign of rate*x) and drops the x^2 term for the fixed-covariance normal (C42_fixed_partial)."
  },
  {
   "property": "C43",
   "status": "partial",
   "theorems": [
    "Verif.Props.C43_categorical_decode",
    "Verif.Props.C43_categorical_injective",
    "Verif.Props.C43_diagonal_decode",
    "Verif.Props.C43_isotropic_decode_partial",
    "Verif.Props.C43_isotropic_negation",
    "Verif.Props.C43_isotropic_batch_raises",
    "Verif.Props.C43_gamma_decode",
    "Verif.Props.C43_full_decode",
    "Verif.Props.C43_full_factor",
    "Verif.Props.C43_full_injective"
   ],
   "note": "Proved for the categorical, diagonal-normal, full-normal and Gamma likelihoods. The code violates the claim for the isotropic normal (C43_isotropic_negation: log-precision read from the last mean coordinate)."
  },
  {
   "property": "C44",
   "status": "proved",
   "theorems": [
    "Verif.Props.C44_responsibilities",
    "Verif.Props.C44_value",
    "Verif.Props.C44_optimal",
    "Verif.Props.C44_value_le_best",
    "Verif.Props.C44_labelled",
    "Verif.Props.C44_weights_update",
    "Verif.Props.C44_mixture_set_agrees",
    "Verif.Props.C44_mixture_set_accumulate"
   ],
   "note": ""
  },
  {
   "property": "C45",
   "status": "partial",
   "theorems": [
    "Verif.Props.C45_index_partial",
    "Verif.Props.C45_minus_one_negation",
    "Verif.Props.C45_slice_partial",
    "Verif.Props.C45_single_component_partial",
    "Verif.Props.C45_open_slice_negation",
    "Verif.Props.C45_step_negation",
    "Verif.Props.C45_empty_negation",
    "Verif.Props.C45_iterate"
   ],
   "note": "The code violates the claim: key -1 gives a mixture without components (C45_minus_one_negation), slices without stop (C45_open_slice_negation) or with a step (C45_step_negation) lose components, an empty selection cannot be accessed again (C45_empty_negation). Iterating over a set gives all its mixtures (C45_iterate). Proved for all other integer keys, slices with a stop and no step, and all slices of single-component mixtures."
  },
  {
   "property": "C46",
   "status": "proved",
   "theorems": [
    "Verif.Props.C46_length",
    "Verif.Props.C46_getitem",
    "Verif.Props.C46_columns",
    "Verif.Props.C46_accumulate",
    "Verif.Props.C46_expected_llh"
   ],
   "note": ""
  },
  {
   "property": "C47",
   "status": "proved",
   "theorems": [
    "Verif.Props.C47_scatter",
    "Verif.Props.C47_mass",
    "Verif.Props.C47_succeeds_iff",
    "Verif.Props.C47_adjoint",
    "Verif.Props.C47_default_order"
   ],
   "note": ""
  },
  {
   "property": "C48",
   "status": "proved",
   "theorems": [
    "Verif.Props.C48_llh_row",
    "Verif.Props.C48_getitem",
    "Verif.Props.C48_accumulate",
    "Verif.Props.C48_fails_iff"
   ],
   "note": ""
  },
  {
   "property": "C49",
   "status": "proved",
   "theorems": [
    "Verif.Props.C49_groups_in_order",
    "Verif.Props.C49_no_parameter_lost",
    "Verif.Props.C49_bayesian_parameters",
    "Verif.Props.C49_joint"
   ],
   "note": ""
  },
  {
   "property": "C50",
   "status": "proved",
   "theorems": [
    "Verif.Props.C50_stick_statistics",
    "Verif.Props.C50_stick_posterior"
   ],
   "note": ""
  },
  {
   "property": "C51",
   "status": "proved",
   "theorems": [
    "Verif.Props.C51_stick_weights",
    "Verif.Props.C51_stick_weights_eps"
   ],
   "note": ""
  },
  {
   "property": "C52",
   "status": "proved",
   "theorems": [
    "Verif.Props.C52_concentration_update"
   ],
   "note": ""
  },
  {
   "property": "C53",
   "status": "proved",
   "theorems": [
    "Verif.Props.C53_minimum",
    "Verif.Props.C53_symmetric",
    "Verif.Props.C53_triangle",
    "Verif.Props.C53_zero_iff",
    "Verif.Props.C53_bounds"
   ],
   "note": ""
  },
  {
   "property": "C54",
   "status": "proved",
   "theorems": [
    "Verif.Props.C54_scripts_agree"
   ],
   "note": ""
  },
  {
   "property": "C55",
   "status": "proved",
   "theorems": [
    "Verif.Props.C55_matching",
    "Verif.Props.C55_counts",
    "Verif.Props.C55_sentinel_needed",
    "Verif.Props.C55_fails_iff",
    "Verif.Props.C55_succeeds",
    "Verif.Props.C55_boundaries",
    "Verif.Props.C55_boundaries_sorted"
   ],
   "note": "Proved for frames below the sentinel 1000000 minus the tolerance, as in the quantifier; C55_sentinel_needed shows the bound is needed. The scorer raises ValueError when the reference has no boundary and the hypothesis has some (C55_fails_iff)."
  },
  {
   "property": "C56",
   "status": "partial",
   "theorems": [
    "Verif.Props.C56_more_hits_than_hypotheses",
    "Verif.Props.C56_bound_by_reference_partial",
    "Verif.Props.C56_index_error",
    "Verif.Props.C56_erases_reference"
   ],
   "note": "The code violates the claim (negation C56_more_hits_than_hypotheses; also C56_index_error, C56_erases_reference); the hits are bounded by the number of reference boundaries."
  },
  {
   "property": "C57",
   "status": "proved",
   "theorems": [
    "Verif.Props.C57_statistics",
    "Verif.Props.C57_order_irrelevant",
    "Verif.Props.C57_variance_nonneg",
    "Verif.Props.C57_errors"
   ],
   "note": ""
  },
  {
   "property": "C58",
   "status": "proved",
   "theorems": [
    "Verif.Props.C58_blocks",
    "Verif.Props.C58_shape",
    "Verif.Props.C58_constant",
    "Verif.Props.C58_linear",
    "Verif.Props.C58_errors"
   ],
   "note": ""
  },
  {
   "property": "C59",
   "status": "partial",
   "theorems": [
    "Verif.Props.C59_half_slope_partial",
    "Verif.Props.C59_not_slope"
   ],
   "note": "The code violates the claim: the delta of a ramp is half of the slope (C59_half_slope_partial, negation C59_not_slope for every non-zero slope)."
  },
  {
   "property": "C60",
   "status": "proved",
   "theorems": [
    "Verif.Props.C60_framing",
    "Verif.Props.C60_other_branches"
   ],
   "note": ""
  },
  {
   "property": "C61",
   "status": "proved",
   "theorems": [
    "Verif.Props.C61_mel_round_trip",
    "Verif.Props.C61_mel_round_trip'",
    "Verif.Props.C61_bark_round_trip",
    "Verif.Props.C61_bark_round_trip'",
    "Verif.Props.C61_bark_range",
    "Verif.Props.C61_mel_strictMono",
    "Verif.Props.C61_bark_strictMono",
    "Verif.Props.C61_inverse_strictMono"
   ],
   "note": ""
  },
  {
   "property": "C62",
   "status": "proved",
   "theorems": [
    "Verif.Props.C62_logsumexp",
    "Verif.Props.C62_all_neg_inf"
   ],
   "note": ""
  },
  {
   "property": "C63",
   "status": "proved",
   "theorems": [
    "Verif.Props.C63_ok_iff",
    "Verif.Props.C63_rows"
   ],
   "note": ""
  },
  {
   "property": "C64",
   "status": "proved",
   "theorems": [
    "Verif.Props.C64_reserve",
    "Verif.Props.C64_default_logger_fails"
   ],
   "note": ""
  },
  {
   "property": "C65",
   "status": "proved",
   "theorems": [
    "Verif.Props.C65_floor",
    "Verif.Props.C65_posdef",
    "Verif.Props.C65_unchanged",
    "Verif.Props.C65_unchanged_symmetric",
    "Verif.Props.C65_idempotent",
    "Verif.Props.C65_not_posdef",
    "Verif.Props.C65_empty"
   ],
   "note": "torch.symeig is a parameter: the theorems assume its contract (ascending eigenvalues, orthonormal eigenvectors), shown satisfiable in every dimension (exists_symeig). C65_not_posdef: with a non-positive largest eigenvalue the result is not positive definite. C65_empty: the empty matrix raises IndexError."
  },
  {
   "property": "C66",
   "status": "proved",
   "theorems": [
    "Verif.Props.C66_autoregressive",
    "Verif.Props.C66_build"
   ],
   "note": "Networks of any depth and width with any connection sequence and weights. C66_build gives exactly when the construction fails."
  },
  {
   "property": "C67",
   "status": "proved",
   "theorems": [
    "Verif.Props.C67_update_params",
    "Verif.Props.C67_short_vector",
    "Verif.Props.C67_pdfvecs",
    "Verif.Props.C67_own_slice"
   ],
   "note": ""
  },
  {
   "property": "C68",
   "status": "partial",
   "theorems": [
    "Verif.Props.C68_minus_one_updates_every_utterance",
    "Verif.Props.C68_not_one_batch",
    "Verif.Props.C68_schedule_covers_partial",
    "Verif.Props.C68_one_batch_partial"
   ],
   "note": "The code violates the claim: negation proved (batch size -1 updates after every utterance); what holds for other batch sizes is in the _partial theorems."
  },
  {
   "property": "C69",
   "status": "partial",
   "theorems": [
    "Verif.Props.C69_fails",
    "Verif.Props.C69_partial"
   ],
   "note": "The code violates the claim: always raises with forced alignments (C69_fails)."
  },
  {
   "property": "C70",
   "status": "partial",
   "theorems": [
    "Verif.Props.C70_all_replaced_partial",
    "Verif.Props.C70_module_list_negation",
    "Verif.Props.C70_two_names_negation"
   ],
   "note": "The code violates the claim: parameters below a ModuleList are never replaced (C70_module_list_negation) and a parameter with two names in a module is replaced once (C70_two_names_negation); proved for trees of models without these."
  },
  {
   "property": "C71",
   "status": "proved",
   "theorems": [
    "Verif.Props.C71_distributed_equals_single",
    "Verif.Props.C71_exact_posterior",
    "Verif.Props.C71_reconnected"
   ],
   "note": ""
  },
  {
   "property": "C72",
   "status": "proved",
   "theorems": [
    "Verif.Props.C72_no_repeat",
    "Verif.Props.C72_idempotent",
    "Verif.Props.C72_fixed_iff",
    "Verif.Props.C72_expand",
    "Verif.Props.C72_durations",
    "Verif.Props.C72_dedup"
   ],
   "note": ""
  },
  {
   "property": "C73",
   "status": "partial",
   "theorems": [
    "Verif.Props.C73_learning_rate_ignored_on_resume"
   ],
   "note": "The code violates the claim: proved that the option has no effect when a state file exists."
  },
  {
   "property": "C74",
   "status": "partial",
   "theorems": [
    "Verif.Props.C74_first_missing_crashes",
    "Verif.Props.C74_missing_skipped_partial"
   ],
   "note": "The code violates the claim when the first id is missing (crash proved); the claim is proved when the first id is present."
  },
  {
   "property": "C75",
   "status": "partial",
   "theorems": [
    "Verif.Props.C75_order_irrelevant_partial",
    "Verif.Props.C75_depends_on_set_order"
   ],
   "note": "The code violates the claim (negation C75_depends_on_set_order); proved when paths between non-emitting states are unique."
  },
  {
   "property": "C76",
   "status": "proved",
   "theorems": [
    "Verif.Props.C76_normalwishart_textbook_update",
    "Verif.Props.C76_normalwishart_update_order"
   ],
   "note": ""
  },
  {
   "property": "C77",
   "status": "partial",
   "theorems": [
    "Verif.Props.C77_dims_agree",
    "Verif.Props.C77_fixed_stats_dim_negation",
    "Verif.Props.C77_full_subspace_dim",
    "Verif.Props.C77_full_wrong_dim",
    "Verif.Props.C77_full_stats_dim_negation"
   ],
   "note": "Proved for categorical, diagonal, isotropic, Gamma, and the subspace dimension of the full-covariance normal. Violated by sufficient_statistics_dim() of the full-covariance and fixed-covariance normals (negations proved)."
  },
  {
   "property": "C78",
   "status": "partial",
   "theorems": [
    "Verif.Props.C78_shared_parameter_negation",
    "Verif.Props.C78_last_member_wins_partial"
   ],
   "note": "The code violates the claim (C78_shared_parameter_negation); the last member wins."
  },
  {
   "property": "C79",
   "status": "partial",
   "theorems": [
    "Verif.Props.C79_joint_partial",
    "Verif.Props.C79_repeated_negation"
   ],
   "note": "Proved for joint sets; iterating over a repeated set never stops (C79_repeated_negation)."
  },
  {
   "property": "C80",
   "status": "proved",
   "theorems": [
    "Verif.Props.C80_stick_log_weights"
   ],
   "note": ""
  },
  {
   "property": "C81",
   "status": "partial",
   "theorems": [
    "Verif.Props.C81_set_prior_mean_partial",
    "Verif.Props.C81_set_prior_mean_fails"
   ],
   "note": "Holds while the root has its initial ordering; fails after re-ordering (C81_set_prior_mean_fails)."
  },
  {
   "property": "C82",
   "status": "partial",
   "theorems": [
    "Verif.Props.C82_law_partial",
    "Verif.Props.C82_use_mean_fails",
    "Verif.Props.C82_use_mean_no_column",
    "Verif.Props.C82_step_bijective",
    "Verif.Props.C82_step_triangular",
    "Verif.Props.C82_correction_is_logdet",
    "Verif.Props.C82_flow_partial",
    "Verif.Props.C82_no_flow_params_fails"
   ],
   "note": "Holds for every step and for every flow with flow_params_dim > 0: the samples have the density exp(llh) (C82_law_partial, change of variables for measurable activations). C82_no_flow_params_fails proves that with flow_params_dim = 0 the network is called with two arguments and raises TypeError; C82_use_mean_fails that with use_mean the log-likelihood is too large by D/2 log(2 pi); C82_use_mean_no_column the IndexError without dimensions."
  },
  {
   "property": "C83",
   "status": "proved",
   "theorems": [
    "Verif.Props.C83_decoding_language",
    "Verif.Props.C83_from_configuration"
   ],
   "note": "HMMs well-formed with a single entry and a single exit (otherwise mkdecodegraph raises ValueError, C08 model); unit names distinct and different from the three special symbols. C83_from_configuration chains mkphones, mkphoneloopgraph, mkdecodegraph and compile."
  },
  {
   "property": "C84",
   "status": "partial",
   "theorems": [
    "Verif.Props.C84_units_partial",
    "Verif.Props.C84_group_without_unit_fails"
   ],
   "note": "Proved when every configured group has a unit; C84_group_without_unit_fails proves that otherwise the command raises NameError (first group) or ZeroDivisionError (later group)."
  },
  {
   "property": "C85",
   "status": "proved",
   "theorems": [
    "Verif.Props.C85_wishart_kl_nonneg",
    "Verif.Props.C85_wishart_kl_zero_iff",
    "Verif.Props.C85_wishart_tangent",
    "Verif.Props.C85_wishart_dim_mismatch",
    "Verif.Props.C85_wishart_not_posDef"
   ],
   "note": "torch.cholesky is modelled by its contract (lower triangular factor with positive diagonal, error when there is none). Zero iff equal needs dimension at least one."
  },
  {
   "property": "C86",
   "status": "proved",
   "theorems": [
    "Verif.Props.C86_normalgamma_gain",
    "Verif.Props.C86_isonormalgamma_gain",
    "Verif.Props.C86_normalwishart_gain",
    "Verif.Props.C86_dirichlet_gain",
    "Verif.Props.C86_normalgamma_stationary",
    "Verif.Props.C86_isonormalgamma_stationary",
    "Verif.Props.C86_normalwishart_stationary",
    "Verif.Props.C86_dirichlet_stationary",
    "Verif.Props.C86_update_size"
   ],
   "note": "Exact real arithmetic; the stationary case needs dimension at least one (two categories for the Dirichlet). The statistics are those of the modelled likelihood functions."
  },
  {
   "property": "C87",
   "status": "proved",
   "theorems": [
    "Verif.Props.C87_normalset_diagonal",
    "Verif.Props.C87_normalset_isotropic",
    "Verif.Props.C87_normalset_full",
    "Verif.Props.C87_categoricalset",
    "Verif.Props.C87_mixtureset",
    "Verif.Props.C87_orderedset",
    "Verif.Props.C87_jointset",
    "Verif.Props.C87_mixture_training",
    "Verif.Props.C87_empty_batch"
   ],
   "note": "A set of models is any set satisfying the spec predicate Lawful; C87_normalset_*, C87_categoricalset, C87_mixtureset, C87_orderedset, C87_jointset prove it for the classes of the library, in any nesting. Mixture weights are a Categorical with a Dirichlet prior (stick-breaking weights: C158)."
  },
  {
   "property": "C88",
   "status": "proved",
   "theorems": [
    "Verif.Props.C88_hmm_training",
    "Verif.Props.C88_infeasible"
   ],
   "note": "Sets of emissions as in C87. The objective is the true variational objective, not the number reported (see C89). The NaN of an utterance without path is modelled as an error."
  },
  {
   "property": "C89",
   "status": "partial",
   "theorems": [
    "Verif.Props.C89_reported_ge_objective",
    "Verif.Props.C89_not_a_lower_bound"
   ],
   "note": "The code violates the claim: C89_not_a_lower_bound gives an HMM whose reported value exceeds the log-probability of its data; C89_reported_ge_objective proves that the reported value always lies above the true objective for sub-stochastic graphs."
  },
  {
   "property": "C90",
   "status": "proved",
   "theorems": [
    "Verif.Props.C90_normalgamma_optimal",
    "Verif.Props.C90_isonormalgamma_optimal",
    "Verif.Props.C90_normalwishart_optimal",
    "Verif.Props.C90_dirichlet_optimal"
   ],
   "note": ""
  },
  {
   "property": "C91",
   "status": "partial",
   "theorems": [
    "Verif.Props.C91_full",
    "Verif.Props.C91_diagonal",
    "Verif.Props.C91_isotropic",
    "Verif.Props.C91_scalar_fails",
    "Verif.Props.C91_unknown_type"
   ],
   "note": "The code violates two parts: C91_scalar_fails (the documented scalar raises RuntimeError) and C91_unknown_type (KeyError, never UnknownCovarianceType). The rest is proved for vectors (also of one value) and matrices."
  },
  {
   "property": "C92",
   "status": "proved",
   "theorems": [
    "Verif.Props.C92_full",
    "Verif.Props.C92_diagonal",
    "Verif.Props.C92_isotropic",
    "Verif.Props.C92_scalar_fails"
   ],
   "note": "Random numbers are an argument; positive variances, so the square root is real. Scalar tensors raise (C92_scalar_fails)."
  },
  {
   "property": "C93",
   "status": "proved",
   "theorems": [
    "Verif.Props.C93_symmetry_kept",
    "Verif.Props.C93_created_without_noise",
    "Verif.Props.C93_created_without_noise_isotropic",
    "Verif.Props.C93_created_without_noise_full"
   ],
   "note": "The weights have a Dirichlet prior. The conclusion holds for every training that does not raise."
  },
  {
   "property": "C94",
   "status": "proved",
   "theorems": [
    "Verif.Props.C94_weights",
    "Verif.Props.C94_create_train_diagonal",
    "Verif.Props.C94_create_train_isotropic",
    "Verif.Props.C94_create_train_full",
    "Verif.Props.C94_mixtureset_weights"
   ],
   "note": "Exact real arithmetic."
  },
  {
   "property": "C95",
   "status": "partial",
   "theorems": [
    "Verif.Props.C95_diag_log_norm",
    "Verif.Props.C95_diag_single",
    "Verif.Props.C95_diag_pdfwise",
    "Verif.Props.C95_diag_batch_raises",
    "Verif.Props.C95_diag_batch_wrong",
    "Verif.Props.C95_diag_batch_negation",
    "Verif.Props.C95_full_log_norm",
    "Verif.Props.C95_full_batch",
    "Verif.Props.C95_full_single_raises",
    "Verif.Props.C95_gamma_log_norm"
   ],
   "note": "The code violates two parts: a batch of diagonal normals on a batch of data subtracts the normaliser along the wrong axis (C95_diag_batch_raises for different sizes, C95_diag_batch_wrong and C95_diag_batch_negation for equal sizes), and a single full-covariance normal raises (C95_full_single_raises). One diagonal normal, pdfwise calls and batches of full-covariance normals are proved."
  },
  {
   "property": "C96",
   "status": "partial",
   "theorems": [
    "Verif.Props.C96_full_kl",
    "Verif.Props.C96_full_kl_dim",
    "Verif.Props.C96_full_roundtrip_negation",
    "Verif.Props.C96_full_roundtrip_partial",
    "Verif.Props.C96_diag_batch_raises",
    "Verif.Props.C96_diag_batch_one"
   ],
   "note": "The code violates two parts: the round trip of full-covariance normals raises in dimension two and more (C96_full_roundtrip_negation; C96_full_roundtrip_partial is dimension one) and kl_div of batches of diagonal normals raises (C96_diag_batch_raises)."
  },
  {
   "property": "C97",
   "status": "proved",
   "theorems": [
    "Verif.Props.C97_full_sample",
    "Verif.Props.C97_diag_sample"
   ],
   "note": "The noise is any random vector with mean zero and identity covariance; torch.randn is trusted to be one. torch.cholesky by its contract."
  },
  {
   "property": "C98",
   "status": "partial",
   "theorems": [
    "Verif.Props.C98_pairs_of_frames",
    "Verif.Props.C98_elbo_times_batch",
    "Verif.Props.C98_default_size",
    "Verif.Props.C98_empty_batch_raises",
    "Verif.Props.C98_single_frame_partial",
    "Verif.Props.C98_elbo_negation",
    "Verif.Props.C98_affine_prior"
   ],
   "note": "The code violates the claim: shapes (N,1) and (N,) broadcast to (N,N), so the local part is counted N times (C98_elbo_times_batch, C98_elbo_negation). Right for batches of one frame (C98_single_frame_partial). Networks are arbitrary functions applied row by row; noise is an argument."
  },
  {
   "property": "C99",
   "status": "proved",
   "theorems": [
    "Verif.Props.C99_gamma",
    "Verif.Props.C99_normal_diag",
    "Verif.Props.C99_normal_full",
    "Verif.Props.C99_normal_gamma",
    "Verif.Props.C99_iso_normal_gamma",
    "Verif.Props.C99_dirichlet_simplex",
    "Verif.Props.C99_dirichlet",
    "Verif.Props.C99_log_weights",
    "Verif.Props.C99_dirichlet_mean",
    "Verif.Props.C99_normal_wishart"
   ],
   "note": "The laws are Mathlib's Gamma and normal laws; the Dirichlet law is that of independent Gamma variables divided by their sum. Normal-Gamma expectations are iterated integrals (precision outside, mean inside). The Wishart law is defined by Bartlett's decomposition (independent normal entries and square roots of chi-squared variables), Mathlib has none."
  },
  {
   "property": "C100",
   "status": "proved",
   "theorems": [
    "Verif.Props.C100_diag_valid",
    "Verif.Props.C100_diag_onto",
    "Verif.Props.C100_factor",
    "Verif.Props.C100_full_valid",
    "Verif.Props.C100_full_onto",
    "Verif.Props.C100_wrong_number_raises",
    "Verif.Props.C100_single_number_broadcast",
    "Verif.Props.C100_new_posteriors",
    "Verif.Props.C100_new_posteriors_errors",
    "Verif.Props.C100_new_transform",
    "Verif.Props.C100_dimensions"
   ],
   "note": "Exact real arithmetic: in floating point exp can overflow. One distribution at a time."
  },
  {
   "property": "C101",
   "status": "proved",
   "theorems": [
    "Verif.Props.C101_rvecs",
    "Verif.Props.C101_expected_pdfvecs",
    "Verif.Props.C101_batch_independent"
   ],
   "note": "Diagonal latent posteriors. The conversion of one super-vector into a pdf-vector is an arbitrary function (its layout is C67). Noise is an argument."
  },
  {
   "property": "C102",
   "status": "proved",
   "theorems": [
    "Verif.Props.C102_objective",
    "Verif.Props.C102_mixture_prior_bound",
    "Verif.Props.C102_sample_law",
    "Verif.Props.C102_unbiased"
   ],
   "note": "Diagonal latent posteriors. Unbiasedness assumes integrable pdf-vectors and prior statistics, and for each combination of a latent draw and a parameter draw independent standard normal noise (torch.randn is trusted to give it)."
  },
  {
   "property": "C103",
   "status": "proved",
   "theorems": [
    "Verif.Props.C103_scalar_product"
   ],
   "note": "One model; builds on C67."
  },
  {
   "property": "C104",
   "status": "proved",
   "theorems": [
    "Verif.Props.C104_pdfvecs",
    "Verif.Props.C104_pairs",
    "Verif.Props.C104_weighted"
   ],
   "note": "Diagonal latent posteriors; the divergence of the class means is computed but not part of the entries."
  },
  {
   "property": "C105",
   "status": "partial",
   "theorems": [
    "Verif.Props.C105_generated_subspace",
    "Verif.Props.C105_expected_pdfvecs",
    "Verif.Props.C105_objective",
    "Verif.Props.C105_objective_partial",
    "Verif.Props.C105_shared_divergence_repeated",
    "Verif.Props.C105_errors",
    "Verif.Props.C105_unbiased"
   ],
   "note": "The prior over unit vectors is one object shared by all languages, and its divergence is subtracted once per language: the stated bound holds with that term multiplied by the number of languages (C105_objective, C105_unbiased), as stated for one language (C105_objective_partial); C105_shared_divergence_repeated is the counterexample. Diagonal posteriors; the noise of torch.randn is an argument."
  },
  {
   "property": "C106",
   "status": "partial",
   "theorems": [
    "Verif.Props.C106_hierarchical_priors_not_trained",
    "Verif.Props.C106_skip_root",
    "Verif.Props.C106_flat_prior"
   ],
   "note": "Holds for shmm train (C106_flat_prior) and the freezing options. Fails for hshmm train: the root objective only knows the statistics of the prior over languages, and the conjugate optimizer only holds the prior over units, so the posterior of the latter goes to its prior and the former never moves (C106_hierarchical_priors_not_trained)."
  },
  {
   "property": "C107",
   "status": "partial",
   "theorems": [
    "Verif.Props.C107_param_stats",
    "Verif.Props.C107_weights_partial",
    "Verif.Props.C107_weights_scaled",
    "Verif.Props.C107_new_weights_uniform",
    "Verif.Props.C107_means_partial",
    "Verif.Props.C107_means_scaled",
    "Verif.Props.C107_frames_disagree"
   ],
   "note": "The statistics are recovered and spread evenly, but the frames are not conserved: those of the weights are multiplied by a third of the number of states (3 is hard-coded), those of the Gaussians by the number of states (the normalisation in line 45 has no effect). Conserved exactly for three states, respectively one state; the two never agree."
  },
  {
   "property": "C108",
   "status": "partial",
   "theorems": [
    "Verif.Props.C108_labels_exact",
    "Verif.Props.C108_labels_partial",
    "Verif.Props.C108_missing_unit_shifts"
   ],
   "note": "Holds when the file names all the units of the group and no unit of the phone-loop of another group; otherwise the labels are shifted (C108_missing_unit_shifts); C108_labels_exact gives the result in all cases."
  },
  {
   "property": "C109",
   "status": "partial",
   "theorems": [
    "Verif.Props.C109_units",
    "Verif.Props.C109_errors",
    "Verif.Props.C109_hier_partial",
    "Verif.Props.C109_hier_wrong_group"
   ],
   "note": "Holds for shmm mksphoneloop (C109_units, for topologies with a single entry and exit). hshmm mksphoneloop takes the emissions of the largest group whatever --unit-group (C109_hier_wrong_group); it agrees when the group is the largest (C109_hier_partial)."
  },
  {
   "property": "C110",
   "status": "partial",
   "theorems": [
    "Verif.Props.C110_posteriors_destroyed",
    "Verif.Props.C110_without_option_partial"
   ],
   "note": "Fails: the file is opened for writing, emptied, and the command stops (C110_posteriors_destroyed). Only the absence of the option is harmless."
  },
  {
   "property": "C111",
   "status": "partial",
   "theorems": [
    "Verif.Props.C111_load",
    "Verif.Props.C111_ter_partial",
    "Verif.Props.C111_zero_iff",
    "Verif.Props.C111_missing_ignored",
    "Verif.Props.C111_missing_utterance_not_counted",
    "Verif.Props.C111_score",
    "Verif.Props.C111_scripts_agree"
   ],
   "note": "Everything but one point: utterances of the reference without hypothesis are left out of the rate of ter.py (C111_missing_ignored for all files, C111_missing_utterance_not_counted). The TIMIT script refuses such files."
  },
  {
   "property": "C112",
   "status": "proved",
   "theorems": [
    "Verif.Props.C112_counts",
    "Verif.Props.C112_optimal",
    "Verif.Props.C112_missing"
   ],
   "note": ""
  },
  {
   "property": "C113",
   "status": "proved",
   "theorems": [
    "Verif.Props.C113_load",
    "Verif.Props.C113_map",
    "Verif.Props.C113_unknown",
    "Verif.Props.C113_pipeline"
   ],
   "note": ""
  },
  {
   "property": "C114",
   "status": "proved",
   "theorems": [
    "Verif.Props.C114_counts",
    "Verif.Props.C114_limit",
    "Verif.Props.C114_never_above"
   ],
   "note": "The smoothing constant 1e-37 tends to 0; for the constant itself only the upper bound of --old is proved (C114_never_above). With a single phone and --old the division 0/0 prints nan in floating point: excluded."
  },
  {
   "property": "C115",
   "status": "proved",
   "theorems": [
    "Verif.Props.C115_load",
    "Verif.Props.C115_entropy",
    "Verif.Props.C115_perplexity",
    "Verif.Props.C115_empty"
   ],
   "note": "Exact real arithmetic."
  },
  {
   "property": "C116",
   "status": "partial",
   "theorems": [
    "Verif.Props.C116_tables_partial",
    "Verif.Props.C116_unknown_state",
    "Verif.Props.C116_information_partial",
    "Verif.Props.C116_missing_first",
    "Verif.Props.C116_missing_reused",
    "Verif.Props.C116_missing_counted",
    "Verif.Props.C116_omitted_symbol_negative"
   ],
   "note": "Holds when every reference utterance has a hypothesis and the groups contain each symbol seen exactly once. A missing hypothesis is not skipped: the utterance is compared with the hypothesis of the previous one (C116_missing_reused, C116_missing_counted), or raises NameError for the first one; symbols outside the groups remain in the hypothesis counts, so that the mutual information can be negative (C116_omitted_symbol_negative)."
  },
  {
   "property": "C117",
   "status": "partial",
   "theorems": [
    "Verif.Props.C117_runs",
    "Verif.Props.C117_central",
    "Verif.Props.C117_inside_partial",
    "Verif.Props.C117_next_token",
    "Verif.Props.C117_refused",
    "Verif.Props.C117_extract",
    "Verif.Props.C117_extract_errors"
   ],
   "note": "The frame belongs to its token exactly when the token is first, last or has at least two frames (C117_inside_partial); a token of one frame elsewhere is represented by the first frame of the token that follows (C117_next_token), because line 22 starts the next token one frame late."
  },
  {
   "property": "C118",
   "status": "partial",
   "theorems": [
    "Verif.Props.C118_stats",
    "Verif.Props.C118_variance",
    "Verif.Props.C118_frames_only",
    "Verif.Props.C118_refused",
    "Verif.Props.C118_one_column_accepted"
   ],
   "note": "Holds for archives of one dimension. An utterance with one column is not refused but broadcast over all coordinates, depending on the order (C118_one_column_accepted)."
  },
  {
   "property": "C119",
   "status": "proved",
   "theorems": [
    "Verif.Props.C119_lexicon",
    "Verif.Props.C119_trans",
    "Verif.Props.C119_align"
   ],
   "note": ""
  },
  {
   "property": "C120",
   "status": "partial",
   "theorems": [
    "Verif.Props.C120_mapping",
    "Verif.Props.C120_pdf2unit_partial",
    "Verif.Props.C120_frames",
    "Verif.Props.C120_states_partial",
    "Verif.Props.C120_single_state_merged",
    "Verif.Props.C120_refused"
   ],
   "note": "Holds when the alignment without repetitions goes through all the states of the units. Two occurrences in a row of a unit with one state are merged (C120_single_state_merged)."
  },
  {
   "property": "C121",
   "status": "partial",
   "theorems": [
    "Verif.Props.C121_diagonal",
    "Verif.Props.C121_use_mean",
    "Verif.Props.C121_isotropic",
    "Verif.Props.C121_identity",
    "Verif.Props.C121_bernoulli_partial",
    "Verif.Props.C121_bernoulli_not_normalised",
    "Verif.Props.C121_bernoulli_positive"
   ],
   "note": "Proved for the normal layers. The Bernoulli layer adds 1e-6 inside the logarithms: its probabilities sum to (1+2e-6)^D (C121_bernoulli_not_normalised) and log-likelihoods can be positive (C121_bernoulli_positive)."
  },
  {
   "property": "C122",
   "status": "partial",
   "theorems": [
    "Verif.Props.C122_read_partial",
    "Verif.Props.C122_documented_form_refused",
    "Verif.Props.C122_refused",
    "Verif.Props.C122_elements",
    "Verif.Props.C122_layer",
    "Verif.Props.C122_create"
   ],
   "note": "The round trip holds with ; between the arguments; the documented form, with commas, is refused with two arguments or more (C122_documented_form_refused)."
  },
  {
   "property": "C123",
   "status": "partial",
   "theorems": [
    "Verif.Props.C123_merge",
    "Verif.Props.C123_merge_in_network",
    "Verif.Props.C123_merge_overwrites",
    "Verif.Props.C123_network",
    "Verif.Props.C123_residual"
   ],
   "note": "Composition, residual connections and the residual network are proved. A merged element sums its transforms only when called with as many inputs; inside a network it gets one, so that only its first transform is used (C123_merge_in_network), and the first input is overwritten when the first transform returns it (C123_merge_overwrites)."
  },
  {
   "property": "C124",
   "status": "partial",
   "theorems": [
    "Verif.Props.C124_index",
    "Verif.Props.C124_element",
    "Verif.Props.C124_nested",
    "Verif.Props.C124_view_partial",
    "Verif.Props.C124_stale",
    "Verif.Props.C124_update_element",
    "Verif.Props.C124_updated",
    "Verif.Props.C124_iterate_never_ends"
   ],
   "note": "The view follows the set as long as neither is updated by update_from_natural_parameters (C124_view_partial), which rebinds the parameters: elements are then stale (C124_stale, C124_update_element). __getitem__ never raises, so iteration never ends (C124_iterate_never_ends)."
  },
  {
   "property": "C125",
   "status": "partial",
   "theorems": [
    "Verif.Props.C125_element",
    "Verif.Props.C125_independent",
    "Verif.Props.C125_new_distributions",
    "Verif.Props.C125_observers",
    "Verif.Props.C125_equality_partial",
    "Verif.Props.C125_hash_collision"
   ],
   "note": "Equality compares hashes only: identifiers with the same hash modulo 2^61-1 are equal (C125_hash_collision); below this number it is exact (C125_equality_partial)."
  },
  {
   "property": "C126",
   "status": "partial",
   "theorems": [
    "Verif.Props.C126_stats",
    "Verif.Props.C126_slice",
    "Verif.Props.C126_zero_partial",
    "Verif.Props.C126_zero_list_no_effect",
    "Verif.Props.C126_natural_form_none",
    "Verif.Props.C126_nested_key_dropped"
   ],
   "note": "Proved for integers and slices. With a list of positions zero_stats has no effect (C126_zero_list_no_effect); natural_form returns None (C126_natural_form_none); an element of an element forgets the first key (C126_nested_key_dropped)."
  },
  {
   "property": "C127",
   "status": "partial",
   "theorems": [
    "Verif.Props.C127_distinct_partial",
    "Verif.Props.C127_copies_clash"
   ],
   "note": "Holds for parameters with different identifiers; the deep copies of new_models share theirs, and only the statistics of the last one remain (C127_copies_clash)."
  },
  {
   "property": "C128",
   "status": "proved",
   "theorems": [
    "Verif.Props.C128_shape",
    "Verif.Props.C128_offset",
    "Verif.Props.C128_gain",
    "Verif.Props.C128_local",
    "Verif.Props.C128_silence"
   ],
   "note": ""
  },
  {
   "property": "C129",
   "status": "partial",
   "theorems": [
    "Verif.Props.C129_triangle",
    "Verif.Props.C129_fbank_partial",
    "Verif.Props.C129_refused",
    "Verif.Props.C129_too_many_filters",
    "Verif.Props.C129_enough",
    "Verif.Props.C129_rate_ignored"
   ],
   "note": "Holds for the sampling rate given to create_fbank (C129_fbank_partial); features/extract.py never gives it, so that its filters are those of 16 kHz (C129_rate_ignored). Coinciding centres give NaN filters rather than an error; this is a refusal in the model (C129_refused, C129_too_many_filters)."
  },
  {
   "property": "C130",
   "status": "proved",
   "theorems": [
    "Verif.Props.C130_orthonormal",
    "Verif.Props.C130_gain",
    "Verif.Props.C130_last_zero",
    "Verif.Props.C130_lifter",
    "Verif.Props.C130_inverse"
   ],
   "note": ""
  },
  {
   "property": "C131",
   "status": "proved",
   "theorems": [
    "Verif.Props.C131_shape",
    "Verif.Props.C131_offset",
    "Verif.Props.C131_zero_mean",
    "Verif.Props.C131_channel",
    "Verif.Props.C131_settings",
    "Verif.Props.C131_errors"
   ],
   "note": ""
  },
  {
   "property": "C132",
   "status": "partial",
   "theorems": [
    "Verif.Props.C132_round_trip_partial",
    "Verif.Props.C132_overwritten",
    "Verif.Props.C132_renamed",
    "Verif.Props.C132_hidden"
   ],
   "note": "Holds for identifiers that do not begin with a dot and do not contain .npy (C132_round_trip_partial); with others features are overwritten, renamed or left out (C132_overwritten, C132_renamed, C132_hidden)."
  },
  {
   "property": "C133",
   "status": "proved",
   "theorems": [
    "Verif.Props.C133_iteration",
    "Verif.Props.C133_savez",
    "Verif.Props.C133_iteration_twice",
    "Verif.Props.C133_extract_iterate"
   ],
   "note": "For archives without two entries of the same name, which is what the extraction gives for plain identifiers (C133_extract_iterate); with two such entries the last one is given twice (C133_iteration_twice)."
  },
  {
   "property": "C134",
   "status": "partial",
   "theorems": [
    "Verif.Props.C134_concentration_partial",
    "Verif.Props.C134_zero_ignored",
    "Verif.Props.C134_class",
    "Verif.Props.C134_dirichlet",
    "Verif.Props.C134_dirichlet2",
    "Verif.Props.C134_stick_breaking",
    "Verif.Props.C134_stick_breaking_order",
    "Verif.Props.C134_hyper_prior",
    "Verif.Props.C134_initial_mean",
    "Verif.Props.C134_default_lost",
    "Verif.Props.C134_hierarchical",
    "Verif.Props.C134_hierarchical_prior"
   ],
   "note": "A concentration of zero is replaced by the default (C134_zero_ignored); with stick-breaking priors the units are not alike and part of the weight belongs to no unit (C134_stick_breaking_order, C134_default_lost)."
  },
  {
   "property": "C135",
   "status": "partial",
   "theorems": [
    "Verif.Props.C135_default_fails",
    "Verif.Props.C135_errors",
    "Verif.Props.C135_keeps_unigram_partial",
    "Verif.Props.C135_unigram_lost",
    "Verif.Props.C135_unigram_lost_witness",
    "Verif.Props.C135_prior_proper",
    "Verif.Props.C135_training",
    "Verif.Props.C135_training_valid",
    "Verif.Props.C135_unseen_context_partial",
    "Verif.Props.C135_unseen_context_fails"
   ],
   "note": "The unigram is kept with the hierarchical prior (C135_keeps_unigram_partial) and forgotten with dirichlet2 (C135_unigram_lost, C135_unigram_lost_witness); the default value of the option is refused (C135_default_fails); unseen contexts keep the unigram only if the units were not re-ordered (C135_unseen_context_fails)."
  },
  {
   "property": "C136",
   "status": "partial",
   "theorems": [
    "Verif.Props.C136_prior_partial",
    "Verif.Props.C136_variance_fails",
    "Verif.Props.C136_no_divergence",
    "Verif.Props.C136_posts",
    "Verif.Props.C136_new_law",
    "Verif.Props.C136_correlations_lost",
    "Verif.Props.C136_units",
    "Verif.Props.C136_errors",
    "Verif.Props.C136_init_agrees",
    "Verif.Props.C136_repeat"
   ],
   "note": "The variance is always 1e-4 more than asked for (C136_variance_fails); the new latent means are drawn without the correlations of the prior (C136_correlations_lost); files with labels are refused (C136_errors). The rest holds."
  },
  {
   "property": "C137",
   "status": "partial",
   "theorems": [
    "Verif.Props.C137_units",
    "Verif.Props.C137_same",
    "Verif.Props.C137_saved",
    "Verif.Props.C137_rooted_partial",
    "Verif.Props.C137_not_rooted",
    "Verif.Props.C137_errors",
    "Verif.Props.C137_train_roots",
    "Verif.Props.C137_largest",
    "Verif.Props.C137_group_partial",
    "Verif.Props.C137_fallback",
    "Verif.Props.C137_group_fails"
   ],
   "note": "With --init-from another language the saved language model keeps a stale root (C137_not_rooted), which training repairs (C137_train_roots); the units written may not be those that training uses (C137_group_fails). The rest holds."
  },
  {
   "property": "C138",
   "status": "partial",
   "theorems": [
    "Verif.Props.C138_created",
    "Verif.Props.C138_initialised",
    "Verif.Props.C138_pairs_partial",
    "Verif.Props.C138_pairs_fails",
    "Verif.Props.C138_units",
    "Verif.Props.C138_loops",
    "Verif.Props.C138_errors"
   ],
   "note": "The pairing goes by position: it is right when the files list the languages in the same order (C138_pairs_partial), as the commands make them (C138_created, C138_initialised), and wrong otherwise (C138_pairs_fails)."
  },
  {
   "property": "C139",
   "status": "partial",
   "theorems": [
    "Verif.Props.C139_sgd",
    "Verif.Props.C139_clip",
    "Verif.Props.C139_frozen_partial",
    "Verif.Props.C139_frozen_conjugate",
    "Verif.Props.C139_frozen_moves",
    "Verif.Props.C139_resume",
    "Verif.Props.C139_rates_ignored",
    "Verif.Props.C139_errors",
    "Verif.Props.C139_frozen_fails"
   ],
   "note": "Adam moves a frozen block that has momentum when torch sets gradients to zero instead of removing them (C139_frozen_moves, C139_frozen_fails); otherwise it is kept (C139_frozen_partial). The rates given with a saved state are ignored (C139_rates_ignored). The rest holds."
  },
  {
   "property": "C140",
   "status": "partial",
   "theorems": [
    "Verif.Props.C140_frames",
    "Verif.Props.C140_covered",
    "Verif.Props.C140_offset",
    "Verif.Props.C140_frames_fails",
    "Verif.Props.C140_errors"
   ],
   "note": "Files that begin after sample 0 or have gaps get their labels too early (C140_frames_fails, C140_offset); for segments that follow each other from the first sample the claim holds (C140_frames, C140_covered). C140_errors covers the refusals."
  },
  {
   "property": "C141",
   "status": "partial",
   "theorems": [
    "Verif.Props.C141_norm",
    "Verif.Props.C141_norm_errors",
    "Verif.Props.C141_removed_twice",
    "Verif.Props.C141_lang",
    "Verif.Props.C141_listed",
    "Verif.Props.C141_lang_errors"
   ],
   "note": "The second pass drops classes that have the name of a phone without a class (C141_removed_twice). The language scripts refuse maps without a class other than sil that goes to sil, and maps the other script accepts (C141_lang_errors). The rest holds."
  },
  {
   "property": "C142",
   "status": "proved",
   "theorems": [
    "Verif.Props.C142_stack",
    "Verif.Props.C142_center",
    "Verif.Props.C142_errors"
   ],
   "note": ""
  },
  {
   "property": "C143",
   "status": "partial",
   "theorems": [
    "Verif.Props.C143_trans",
    "Verif.Props.C143_injective",
    "Verif.Props.C143_trans_errors",
    "Verif.Props.C143_states",
    "Verif.Props.C143_states_recover",
    "Verif.Props.C143_states_fails",
    "Verif.Props.C143_states_unknown",
    "Verif.Props.C143_speakers",
    "Verif.Props.C143_speakers_fails",
    "Verif.Props.C143_speakers_errors"
   ],
   "note": "Phones must be numbered from 0: with phones numbered from 1, as other scripts do, the last phone has no states (C143_states_fails); and the speaker labels depend on the order of a set (C143_speakers_fails). The rest holds."
  },
  {
   "property": "C144",
   "status": "partial",
   "theorems": [
    "Verif.Props.C144_language",
    "Verif.Props.C144_language_silence",
    "Verif.Props.C144_errors",
    "Verif.Props.C144_graph",
    "Verif.Props.C144_weights",
    "Verif.Props.C144_uniform",
    "Verif.Props.C144_order_fails",
    "Verif.Props.C144_prepare_errors"
   ],
   "note": "For a phone listed twice with two weights the graph depends on the order of a set (C144_order_fails). The rest holds; without silence the end counts as one more phone of weight one (C144_weights, C144_uniform)."
  },
  {
   "property": "C145",
   "status": "partial",
   "theorems": [
    "Verif.Props.C145_ids",
    "Verif.Props.C145_line",
    "Verif.Props.C145_unknown_dropped",
    "Verif.Props.C145_unknown_fails",
    "Verif.Props.C145_all_written",
    "Verif.Props.C145_errors"
   ],
   "note": "An utterance with an unknown word is left out instead of getting the id of the unknown word (C145_unknown_dropped), or written as the phones that are the characters of that id (C145_unknown_fails). Texts of known words are written in full (C145_all_written)."
  },
  {
   "property": "C146",
   "status": "partial",
   "theorems": [
    "Verif.Props.C146_clean",
    "Verif.Props.C146_group",
    "Verif.Props.C146_key",
    "Verif.Props.C146_lines",
    "Verif.Props.C146_sil_partial",
    "Verif.Props.C146_sil_fails"
   ],
   "note": "With --add-sil a sentence that ends with a word in brackets, or has no letters, gets two silences in a row (C146_sil_fails). The rest holds (C146_lines, C146_sil_partial)."
  },
  {
   "property": "C147",
   "status": "partial",
   "theorems": [
    "Verif.Props.C147_prefix_partial",
    "Verif.Props.C147_prefix_fails",
    "Verif.Props.C147_prefix_empty",
    "Verif.Props.C147_units",
    "Verif.Props.C147_units_negative"
   ],
   "note": "Two transcriptions become the same when an excluded token begins with the prefix (C147_prefix_fails); otherwise they stay different (C147_prefix_partial)."
  },
  {
   "property": "C148",
   "status": "partial",
   "theorems": [
    "Verif.Props.C148_clear",
    "Verif.Props.C148_history_partial",
    "Verif.Props.C148_unaligned",
    "Verif.Props.C148_stale"
   ],
   "note": "After a direct call of expected_log_likelihood, or an objective that raised, trans_resps stays in the cache and is counted for the next utterance with an alignment graph (C148_stale). When every evaluation goes through evidence_lower_bound and succeeds, the claim holds (C148_history_partial); without alignment graph it holds always (C148_unaligned)."
  },
  {
   "property": "C149",
   "status": "partial",
   "theorems": [
    "Verif.Props.C149_objective",
    "Verif.Props.C149_labelled",
    "Verif.Props.C149_errors",
    "Verif.Props.C149_training",
    "Verif.Props.C149_class_prior_partial",
    "Verif.Props.C149_class_prior_scaled"
   ],
   "note": "On a mini-batch the statistics of the class means are scaled although all of them were seen (C149_class_prior_scaled); for the whole data, which is what shmm train uses, they are counted once (C149_class_prior_partial). The rest holds."
  },
  {
   "property": "C150",
   "status": "partial",
   "theorems": [
    "Verif.Props.C150_reported",
    "Verif.Props.C150_step",
    "Verif.Props.C150_training_partial",
    "Verif.Props.C150_decreases",
    "Verif.Props.C150_errors"
   ],
   "note": "The reported value leaves out the expected log-weights of the labels but charges the divergence of the weights, so it can decrease (C150_decreases); with them it never decreases (C150_training_partial)."
  },
  {
   "property": "C151",
   "status": "partial",
   "theorems": [
    "Verif.Props.C151_language_partial",
    "Verif.Props.C151_transition_lost"
   ],
   "note": "find_next_pdf_ids loses the weight of an arc leading to a silent state (it counts the next one twice); the transition of a state to itself can then get the probability one and the other transitions are erased (C151_transition_lost). Graphs where silent states entered from emitting states have a single way out, or lead to emitting states only, keep exactly their paths (C151_language_partial)."
  },
  {
   "property": "C152",
   "status": "proved",
   "theorems": [
    "Verif.Props.C152_alignment",
    "Verif.Props.C152_decoding"
   ],
   "note": "For units whose HMM is left by its last state only, which holds for every topology without arcs out of the last state (Graph.unitHmm_ends)."
  },
  {
   "property": "C153",
   "status": "partial",
   "theorems": [
    "Verif.Props.C153_topologies",
    "Verif.Props.C153_inventory",
    "Verif.Props.C153_path",
    "Verif.Props.C153_alignment",
    "Verif.Props.C153_free",
    "Verif.Props.C153_too_short",
    "Verif.Props.C153_reentered"
   ],
   "note": "An utterance with fewer frames than its transcription has units is decoded without error to something else (C153_too_short), a directly repeated unit with a single entry-and-exit pdf is printed once, and a unit whose topology leads back to its first emitting state is printed again each time (C153_reentered; none of the recipes has one, C153_topologies). Otherwise the transcription is printed (C153_alignment), and free decoding prints an allowed sequence (C153_free)."
  },
  {
   "property": "C154",
   "status": "partial",
   "theorems": [
    "Verif.Props.C154_lines",
    "Verif.Props.C154_stops",
    "Verif.Props.C154_no_frames",
    "Verif.Props.C154_first_missing",
    "Verif.Props.C154_blank_line",
    "Verif.Props.C154_mkali",
    "Verif.Props.C154_mkali_blank",
    "Verif.Props.C154_forced"
   ],
   "note": "When the first requested utterance is missing from the data set the warning itself raises NameError and nothing is printed (C154_first_missing); blank lines raise IndexError (C154_blank_line, C154_mkali_blank). Otherwise proved (C154_lines, C154_stops, C154_mkali, C154_forced)."
  },
  {
   "property": "C155",
   "status": "partial",
   "theorems": [
    "Verif.Props.C155_scaled_partial",
    "Verif.Props.C155_unscaled",
    "Verif.Props.C155_distribution",
    "Verif.Props.C155_scale_mixtures",
    "Verif.Props.C155_nan",
    "Verif.Props.C155_log",
    "Verif.Props.C155_log_excess",
    "Verif.Props.C155_units_partial",
    "Verif.Props.C155_files",
    "Verif.Props.C155_no_frames",
    "Verif.Props.C155_index_error",
    "Verif.Props.C155_units_lost"
   ],
   "note": "With mixtures the scale multiplies the statistics and not the log-likelihoods (C155_scale_mixtures); units lose the posterior of their exit state (C155_units_lost); --log adds 1e-5 first, so that the numbers are not log-probabilities (C155_log_excess); utterances without an allowed path give files of NaN silently (C155_nan). Proved for Normals (C155_scaled_partial), without a scale for all emissions (C155_unscaled), and what the files are (C155_distribution, C155_units_partial, C155_log, C155_files, C155_no_frames)."
  },
  {
   "property": "C156",
   "status": "partial",
   "theorems": [
    "Verif.Props.C156_paths_partial",
    "Verif.Props.C156_decode_partial",
    "Verif.Props.C156_weights",
    "Verif.Props.C156_weights_sb",
    "Verif.Props.C156_stuck"
   ],
   "note": "Fails for a single unit with a single pdf which begins and ends the utterances: its self-loop has probability one, the update takes the logarithm of zero and no utterance of two frames is possible any more (C156_stuck). Proved for two units or more and for units beginning and ending in different pdfs (C156_paths_partial, C156_decode_partial), for all log-weights which are not positive, which those of Dirichlet and stick-breaking weights are (C156_weights, C156_weights_sb)."
  },
  {
   "property": "C157",
   "status": "partial",
   "theorems": [
    "Verif.Props.C157_step_partial",
    "Verif.Props.C157_runs",
    "Verif.Props.C157_aligned",
    "Verif.Props.C157_aligned_reset",
    "Verif.Props.C157_infeasible",
    "Verif.Props.C157_decrease",
    "Verif.Props.C157_decrease_witness"
   ],
   "note": "The counts of the weights include the first unit of every utterance, whose probability in the graph does not depend on the weights: the objective can decrease (C157_decrease, C157_decrease_witness). Proved: no exception and a decoding graph which follows the weights (C157_runs), a bound of the decrease by the change of the log-weights of the first units (C157_step_partial), no decrease with alignments (C157_aligned), where the weights fall back to their prior (C157_aligned_reset)."
  },
  {
   "property": "C158",
   "status": "partial",
   "theorems": [
    "Verif.Props.C158_best",
    "Verif.Props.C158_step_partial",
    "Verif.Props.C158_mixture_training",
    "Verif.Props.C158_mixture_step_partial",
    "Verif.Props.C158_create",
    "Verif.Props.C158_empty_batch",
    "Verif.Props.C158_decrease"
   ],
   "note": "With a learning rate below one a stick keeps a part of its old posterior while its rank changes: the evidence lower bound can decrease (C158_decrease). Proved: with learning rate one no decrease, alone (C158_step_partial) and in training mixtures (C158_mixture_step_partial, C158_mixture_training), with any learning rate when the order does not change (same theorems), the best sticks and the best order (C158_best), the exception for an empty batch (C158_empty_batch)."
  },
  {
   "property": "C159",
   "status": "partial",
   "theorems": [
    "Verif.Props.C159_joint_step",
    "Verif.Props.C159_reported",
    "Verif.Props.C159_joint_training",
    "Verif.Props.C159_create",
    "Verif.Props.C159_reported_decrease"
   ],
   "note": "evidence_lower_bound omits the divergence of the concentration and takes the prior of the sticks at the mean concentration: the number returned is larger than the joint bound (C159_reported) and can decrease (C159_reported_decrease). Proved: the joint bound never decreases (C159_joint_step, C159_joint_training); what create makes (C159_create)."
  },
  {
   "property": "C160",
   "status": "partial",
   "theorems": [
    "Verif.Props.C160_sticks",
    "Verif.Props.C160_rows_partial",
    "Verif.Props.C160_aligned",
    "Verif.Props.C160_infeasible",
    "Verif.Props.C160_rows_decrease",
    "Verif.Props.C160_rows_decrease_witness"
   ],
   "note": "With Dirichlet weights the rows are installed as columns of the transitions, so training can decrease the objective (C160_rows_decrease, C160_rows_decrease_witness); utterances with alignments raise exceptions (C160_aligned). Proved: with stick-breaking weights any training without alignments never decreases the objective (C160_sticks); with Dirichlet weights a step runs and the decrease is bounded by the transposition (C160_rows_partial); the exception for an utterance without path (C160_infeasible)."
  },
  {
   "property": "C161",
   "status": "partial",
   "theorems": [
    "Verif.Props.C161_step_partial",
    "Verif.Props.C161_hyper_step_partial",
    "Verif.Props.C161_aligned",
    "Verif.Props.C161_hyper_aligned",
    "Verif.Props.C161_aligned_reset",
    "Verif.Props.C161_infeasible",
    "Verif.Props.C161_decrease",
    "Verif.Props.C161_decrease_witness"
   ],
   "note": "The first unit of each utterance is counted although the initial probabilities do not depend on the weights: training can decrease the objective (C161_decrease, C161_decrease_witness); a full step on aligned utterances resets the sticks to their prior (C161_aligned_reset). Proved: every training runs, keeps the decoding graph that of the weights, and the decrease of a full step is bounded by the change of the weights of the first units (C161_step_partial, C161_hyper_step_partial); no decrease with alignments (C161_aligned, C161_hyper_aligned); the exception for an utterance without path (C161_infeasible)."
  },
  {
   "property": "C162",
   "status": "partial",
   "theorems": [
    "Verif.Props.C162_scores",
    "Verif.Props.C162_same",
    "Verif.Props.C162_exact",
    "Verif.Props.C162_names",
    "Verif.Props.C162_errors",
    "Verif.Props.C162_empty_line",
    "Verif.Props.C162_files",
    "Verif.Props.C162_mapping_partial",
    "Verif.Props.C162_merged"
   ],
   "note": "The names given to the unknown units restart at 1 for the reference while the names given for the hypothesis stay in the mapping, so that different reference units can get one name and a boundary disappears (C162_merged). Proved: the scores (C162_scores, C162_same, C162_exact), the independence from the names (C162_names), the files (C162_files), the exceptions (C162_errors, C162_empty_line), and the scores with a mapping which knows all the units of the hypothesis, or all those of the reference which are not in the hypothesis (C162_mapping_partial)."
  },
  {
   "property": "C163",
   "status": "partial",
   "theorems": [
    "Verif.Props.C163_features_partial",
    "Verif.Props.C163_local",
    "Verif.Props.C163_shift",
    "Verif.Props.C163_gain",
    "Verif.Props.C163_errors",
    "Verif.Props.C163_rate_ignored"
   ],
   "note": "The filters are made for 16 kHz whatever srate is (C163_rate_ignored, with a witness at 8 kHz). Proved: the value of every feature, with the filters for 16 kHz (C163_features_partial), what a row depends on (C163_local), delays (C163_shift), gains (C163_gain) and the exceptions (C163_errors)."
  },
  {
   "property": "C164",
   "status": "partial",
   "theorems": [
    "Verif.Props.C164_create_partial",
    "Verif.Props.C164_create_errors",
    "Verif.Props.C164_no_objective",
    "Verif.Props.C164_update",
    "Verif.Props.C164_invalid",
    "Verif.Props.C164_trained_mean"
   ],
   "note": "The evidence lower bound of a Gamma model can never be computed, the statistics having one value more than the natural parameters (C164_no_objective), and the update takes the data away from the rate (C164_update), so that the posterior is not valid as soon as the data sum to the rate of the prior (C164_invalid) and the mean decreases with the data (C164_trained_mean). Proved: the creation (C164_create_partial, C164_create_errors)."
  },
  {
   "property": "C165",
   "status": "partial",
   "theorems": [
    "Verif.Props.C165_jacobians_partial",
    "Verif.Props.C165_when",
    "Verif.Props.C165_missing",
    "Verif.Props.C165_wrong",
    "Verif.Props.C165_hessian",
    "Verif.Props.C165_semidefinite"
   ],
   "note": "The gradients are cleared before the first output only, so that the rows are sums of the gradients of all the outputs so far (C165_jacobians_partial); the matrices are the Jacobian ones exactly when these sums vanish before every output but the first (C165_when); an input the first output does not depend on raises an exception (C165_missing); a witness with two outputs is C165_wrong. Proved for any matrices: approximate_hessian is their product (C165_hessian), symmetric and positive semi-definite (C165_semidefinite)."
  },
  {
   "property": "C166",
   "status": "proved",
   "theorems": [
    "Verif.Props.C166_exact_diagonal",
    "Verif.Props.C166_exact_isotropic",
    "Verif.Props.C166_exact_categorical",
    "Verif.Props.C166_normalset_diagonal",
    "Verif.Props.C166_normalset_isotropic",
    "Verif.Props.C166_categoricalset",
    "Verif.Props.C166_mixtureset",
    "Verif.Props.C166_orderedset",
    "Verif.Props.C166_jointset",
    "Verif.Props.C166_mixture_bound",
    "Verif.Props.C166_hmm_bound",
    "Verif.Props.C166_mixture_converges",
    "Verif.Props.C166_hmm_converges",
    "Verif.Props.C166_exact_full",
    "Verif.Props.C166_normalset_full"
   ],
   "note": "For full covariance the Wishart law is defined by Bartlett's decomposition, Mathlib has none; the statements hold for every factorisation of the scale matrices. The value reported for an HMM is not the objective of its training and is no lower bound (C89)."
  },
  {
   "property": "C167",
   "status": "proved",
   "theorems": [
    "Verif.Props.C167_diagonal_units",
    "Verif.Props.C167_isotropic_similarity",
    "Verif.Props.C167_full_affine",
    "Verif.Props.C167_mixture_sets",
    "Verif.Props.C167_shared_and_joint",
    "Verif.Props.C167_mixture_training",
    "Verif.Props.C167_hmm_training",
    "Verif.Props.C167_loop_training",
    "Verif.Props.C167_dataset_stats",
    "Verif.Props.C167_created_diagonal",
    "Verif.Props.C167_created_full",
    "Verif.Props.C167_created_isotropic",
    "Verif.Props.C167_pipeline"
   ],
   "note": "Exact arithmetic. For HMMs and phone loops the training on the original features is assumed to succeed (C88 and C157 say when). Best paths: for an argmax which only depends on comparisons of scores."
  },
  {
   "property": "C168",
   "status": "proved",
   "theorems": [
    "Verif.Props.C168_sets",
    "Verif.Props.C168_mixture_sets",
    "Verif.Props.C168_mixture_training",
    "Verif.Props.C168_hmm_training",
    "Verif.Props.C168_shared",
    "Verif.Props.C168_loop_training",
    "Verif.Props.C168_loop_units"
   ],
   "note": "Best paths are outside: ties are broken by the numbers."
  },
  {
   "property": "C169",
   "status": "proved",
   "theorems": [
    "Verif.Props.C169_diagonal",
    "Verif.Props.C169_isotropic",
    "Verif.Props.C169_full",
    "Verif.Props.C169_limit",
    "Verif.Props.C169_no_data"
   ],
   "note": "Positive strengths and positive definite requested covariances (positive variances for the diagonal and isotropic types); a tensor without dimension is refused (C91)."
  },
  {
   "property": "C170",
   "status": "proved",
   "theorems": [
    "Verif.Props.C170_offset",
    "Verif.Props.C170_best_path_and_evidence",
    "Verif.Props.C170_monotone",
    "Verif.Props.C170_only_path"
   ],
   "note": "Exact arithmetic; best_path for any argmax that returns a maximal index."
  },
  {
   "property": "C171",
   "status": "proved",
   "theorems": [
    "Verif.Props.C171_mixture_diagonal",
    "Verif.Props.C171_mixture_isotropic",
    "Verif.Props.C171_mixture_full",
    "Verif.Props.C171_mixture_of_one",
    "Verif.Props.C171_hmm_diagonal",
    "Verif.Props.C171_hmm_isotropic",
    "Verif.Props.C171_hmm_full"
   ],
   "note": "Valid parameters; utterances that the graph can produce. Learning rate one (C171_mixture_of_one: any rate of (0, 1])."
  },
  {
   "property": "C172",
   "status": "proved",
   "theorems": [
    "Verif.Props.C172_normalset_diagonal",
    "Verif.Props.C172_normalset_isotropic",
    "Verif.Props.C172_normalset_full",
    "Verif.Props.C172_categoricalset",
    "Verif.Props.C172_mixtureset",
    "Verif.Props.C172_orderedset",
    "Verif.Props.C172_jointset",
    "Verif.Props.C172_mixture",
    "Verif.Props.C172_hmm",
    "Verif.Props.C172_hmm_mixtures",
    "Verif.Props.C172_equilibrium",
    "Verif.Props.C172_first_step",
    "Verif.Props.C172_identical_components",
    "Verif.Props.C172_single_component_weights",
    "Verif.Props.C172_single_component_moves"
   ],
   "note": "Valid parameters; utterances that the graph can produce. The boundary case of a single component is proved as well (C172_single_component_*)."
  },
  {
   "property": "C173",
   "status": "partial",
   "theorems": [
    "Verif.Props.C173_zero_scale",
    "Verif.Props.C173_zero_not_flat",
    "Verif.Props.C173_zero_flat_partial",
    "Verif.Props.C173_large_scale",
    "Verif.Props.C173_sharp_partial",
    "Verif.Props.C173_not_sharp",
    "Verif.Props.C173_value_monotone",
    "Verif.Props.C173_decode_tradeoff",
    "Verif.Props.C173_decode_limits",
    "Verif.Props.C173_posteriors_zero"
   ],
   "note": "The comment's claims fail: flat at scale 0 (C173_zero_not_flat) and sharp at large scales (C173_not_sharp). Proved instead: the value at 0, the limit, and when the comment holds (C173_zero_flat_partial, C173_sharp_partial); the rest of the statement holds without exception on graphs that allow some sequence."
  },
  {
   "property": "C174",
   "status": "partial",
   "theorems": [
    "Verif.Props.C174_scores_partial",
    "Verif.Props.C174_precision_above_one",
    "Verif.Props.C174_same",
    "Verif.Props.C174_no_hit",
    "Verif.Props.C174_nothing_matches",
    "Verif.Props.C174_errors",
    "Verif.Props.C174_insertions",
    "Verif.Props.C174_files",
    "Verif.Props.C174_mapping",
    "Verif.Props.C174_mapping_moves"
   ],
   "note": "The code violates the claim: precision of 200% (C174_precision_above_one), ZeroDivisionError without hits (C174_no_hit, C174_nothing_matches), IndexError and lost recall with insertions (C174_insertions), moved boundaries with a mapping (C174_mapping_moves). Proved: the ratios and the bounds that hold (C174_scores_partial), equal boundaries (C174_same), the error branches (C174_errors) and the reading of the files (C174_files). With a mapping the score is that of the mapped files (C174_mapping)."
  },
  {
   "property": "C175",
   "status": "partial",
   "theorems": [
    "Verif.Props.C175_units_partial",
    "Verif.Props.C175_too_few_phones",
    "Verif.Props.C175_same_as_mkphones",
    "Verif.Props.C175_emissions",
    "Verif.Props.C175_unit_failures",
    "Verif.Props.C175_same_phone_fails",
    "Verif.Props.C175_extra_phone_fails",
    "Verif.Props.C175_states_of_topology_fails",
    "Verif.Props.C175_one_state"
   ],
   "note": "The code violates the claim: densities without a unit for repeated names (C175_same_phone_fails), phones without a unit (C175_extra_phone_fails), arcs to missing states (C175_states_of_topology_fails). Proved: the units for distinct phones, arcs and positive weights (C175_units_partial), too few phones (C175_too_few_phones), the equality with mkphones (C175_same_as_mkphones) and the error branches (C175_emissions, C175_unit_failures, C175_one_state)."
  },
  {
   "property": "C176",
   "status": "proved",
   "theorems": [
    "Verif.Props.C176_hmm_gradient",
    "Verif.Props.C176_hmm_values",
    "Verif.Props.C176_impossible",
    "Verif.Props.C176_convex",
    "Verif.Props.C176_one_score",
    "Verif.Props.C176_transitions",
    "Verif.Props.C176_viterbi",
    "Verif.Props.C176_mixture"
   ],
   "note": "Autograd is not modelled: the derivative of the value with the responsibilities held constant stands for it. Equality of the slopes and value of the slope (C176_hmm_gradient), the link with the reported value and the second value of posteriors (C176_hmm_values), the transitions (C176_transitions), convexity, tangent and Lipschitz bound (C176_convex), one score (C176_one_score), Viterbi (C176_viterbi), mixtures (C176_mixture); utterances without any possible path give NaN (C176_impossible)."
  },
  {
   "property": "C177",
   "status": "partial",
   "theorems": [
    "Verif.Props.C177_strict",
    "Verif.Props.C177_stops",
    "Verif.Props.C177_training",
    "Verif.Props.C177_value",
    "Verif.Props.C177_below_posteriors",
    "Verif.Props.C177_given_frames",
    "Verif.Props.C177_given_exact",
    "Verif.Props.C177_short",
    "Verif.Props.C177_impossible_accepted",
    "Verif.Props.C177_viterbi_decrease"
   ],
   "note": "Holds for the objective with the log-probability of the sequence (C177_training), for the relation between it and the reported value (C177_value), for the bound by the posterior objective (C177_below_posteriors), for the strict growth until nothing changes (C177_strict) and the end after finitely many steps (C177_stops), for given sequences (C177_given_frames, C177_given_exact). Negations: the value reported with Viterbi, which leaves out the log-probability of the sequence, can decrease (C177_viterbi_decrease); an utterance shorter than the number of a visited state raises IndexError, because `_inference` indexes the frames with the states (C177_short); an utterance the graph does not allow is accepted and its frames given to a sequence of probability zero (C177_impossible_accepted). Torch's advanced indexing and autograd are modelled by their outcome only."
  },
  {
   "property": "C178",
   "status": "proved",
   "theorems": [
    "Verif.Props.C178_mean",
    "Verif.Props.C178_weights",
    "Verif.Props.C178_one_pass",
    "Verif.Props.C178_harmonic",
    "Verif.Props.C178_cycle",
    "Verif.Props.C178_last_batch",
    "Verif.Props.C178_empty_batch",
    "Verif.Props.C178_value",
    "Verif.Props.C178_rate_one",
    "Verif.Props.C178_unequal"
   ],
   "note": "The reported values and their mean (C178_value). Mean of the exact posteriors and its weights (C178_mean, C178_weights), one pass with shares as learning rates (C178_one_pass, C178_harmonic), constant learning rate (C178_cycle: limit cycle, geometric convergence, mean, distance), last batch (C178_last_batch), witnesses that learning rate one and 1, 1/2, \u2026 with unequal batches do not give the exact posterior (C178_rate_one, C178_unequal), empty batches (C178_empty_batch). Models with latent variables are not covered: their batches interact through the responsibilities."
  },
  {
   "property": "C179",
   "status": "proved",
   "theorems": [
    "Verif.Props.C179_evidence",
    "Verif.Props.C179_state_posteriors",
    "Verif.Props.C179_transition_posteriors",
    "Verif.Props.C179_decoding",
    "Verif.Props.C179_tight",
    "Verif.Props.C179_gap_needed",
    "Verif.Props.C179_mixture"
   ],
   "note": "Log-probability and best score (C179_evidence), posteriors of the states and of the transitions (C179_state_posteriors, C179_transition_posteriors), decoded sequence (C179_decoding), mixtures (C179_mixture), the bounds are reached (C179_tight, C179_gap_needed). The arithmetic of the recursions is exact in the model: rounding inside them is not covered."
  },
  {
   "property": "C180",
   "status": "proved",
   "theorems": [
    "Verif.Props.C180_unit",
    "Verif.Props.C180_nonspeech",
    "Verif.Props.C180_decode",
    "Verif.Props.C180_trained",
    "Verif.Props.C180_counts",
    "Verif.Props.C180_law",
    "Verif.Props.C180_mean",
    "Verif.Props.C180_compiled"
   ],
   "note": "Least duration of a unit and durations allowed (C180_unit, C180_nonspeech), decoding with the initial and with the trained phone loop (C180_decode, C180_trained; units not leading back to their first emitting state, and for the trained loop the case not stuck of C156), counts of the phone loop (C180_counts), law and mean of the durations (C180_law, C180_mean) and the graph compiled from the topology (C180_compiled). The law is that of a unit alone."
  },
  {
   "property": "C181",
   "status": "proved",
   "theorems": [
    "Verif.Props.C181_weights",
    "Verif.Props.C181_limit"
   ],
   "note": "One full step from any posterior (C181_weights) and growing data (C181_limit), with Dirichlet weights."
  },
  {
   "property": "C182",
   "status": "proved",
   "theorems": [
    "Verif.Props.C182_order",
    "Verif.Props.C182_unused"
   ],
   "note": "One full step from any posterior: order and ratios (C182_order), components without data (C182_unused), with the constant which the code adds to the norms of the means. SBCategorical only, without the hyper-prior over the concentration."
  },
  {
   "property": "C183",
   "status": "partial",
   "theorems": [
    "Verif.Props.C183_installed",
    "Verif.Props.C183_reversed",
    "Verif.Props.C183_mass_fails",
    "Verif.Props.C183_symmetric_partial",
    "Verif.Props.C183_sticks_mass",
    "Verif.Props.C183_sticks_more",
    "Verif.Props.C183_more_fails"
   ],
   "note": "The code violates the claim for CategoricalSet, since it installs the transpose of the weights: the probability of going from one unit to another is computed from the count of the converse (C183_installed), the rarer of two directions becomes the likelier one (C183_reversed), seeing a transition more often makes the converse transition more likely and not this one (C183_more_fails), and the transitions leaving a unit which always follows two others sum to more than one (C183_mass_fails). Proved for symmetric counts (C183_symmetric_partial) and for stick-breaking sets: a transition seen more often becomes more likely (C183_sticks_more), the transitions sum to less than one (C183_sticks_mass)."
  }
 ]
}