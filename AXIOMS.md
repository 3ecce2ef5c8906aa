# Axioms of the theorems of the manifest

Generated from `#print axioms`.

## no axioms (5)

`C123_merge_in_network`, `C123_merge_overwrites`, `C123_network`, `C138_pairs_fails`, `C143_states_fails`

## Classical.choice, Quot.sound, propext (796)

`C02_idempotent`, `C02_normalize_divides`, `C02_sums_to_one`, `C02_zero_sum_fails`, `C03_replace_state`, `C04_self_loop_fails`, `C05_distribution_or_nan_partial`, `C05_distributions_partial`, `C05_zero_weight_arc`, `C06_other_rows_unchanged`, `C06_row_normalised`, `C06_self_loop_too_large`, `C07_first_weight_lost`, `C07_no_chain_partial`, `C07_second_path_lost`, `C07_sum_over_paths_partial`, `C08_duplicate_unit_shifts`, `C08_error_branches`, `C08_state_emits_own_pdf`, `C09_paths`, `C09_unknown_unit`, `C100_diag_onto`, `C100_diag_valid`, `C100_factor`, `C100_full_onto`, `C100_full_valid`, `C100_new_posteriors`, `C100_new_posteriors_errors`, `C100_new_transform`, `C100_single_number_broadcast`, `C100_wrong_number_raises`, `C101_batch_independent`, `C101_expected_pdfvecs`, `C101_rvecs`, `C102_mixture_prior_bound`, `C102_objective`, `C102_sample_law`, `C102_unbiased`, `C103_scalar_product`, `C104_pairs`, `C104_pdfvecs`, `C104_weighted`, `C105_errors`, `C105_expected_pdfvecs`, `C105_generated_subspace`, `C105_objective`, `C105_objective_partial`, `C105_shared_divergence_repeated`, `C105_unbiased`, `C106_flat_prior`, `C106_hierarchical_priors_not_trained`, `C106_skip_root`, `C107_frames_disagree`, `C107_means_partial`, `C107_means_scaled`, `C107_new_weights_uniform`, `C107_weights_partial`, `C107_weights_scaled`, `C108_labels_exact`, `C108_labels_partial`, `C108_missing_unit_shifts`, `C109_errors`, `C109_hier_partial`, `C109_hier_wrong_group`, `C109_units`, `C10_forward_is_path_sum`, `C111_load`, `C111_missing_ignored`, `C111_missing_utterance_not_counted`, `C111_score`, `C111_scripts_agree`, `C111_ter_partial`, `C111_zero_iff`, `C112_counts`, `C112_missing`, `C112_optimal`, `C113_load`, `C113_map`, `C113_pipeline`, `C113_unknown`, `C114_counts`, `C114_limit`, `C114_never_above`, `C115_empty`, `C115_entropy`, `C115_load`, `C115_perplexity`, `C116_information_partial`, `C116_missing_counted`, `C116_missing_first`, `C116_missing_reused`, `C116_omitted_symbol_negative`, `C116_tables_partial`, `C116_unknown_state`, `C117_central`, `C117_extract`, `C117_inside_partial`, `C117_next_token`, `C117_runs`, `C118_frames_only`, `C118_one_column_accepted`, `C118_refused`, `C118_stats`, `C118_variance`, `C119_align`, `C119_lexicon`, `C119_trans`, `C11_evidence_constant`, `C11_state_posterior_is_marginal`, `C11_state_posteriors_sum_to_one`, `C11_zero_evidence_is_nan`, `C120_pdf2unit_partial`, `C120_states_partial`, `C121_bernoulli_not_normalised`, `C121_bernoulli_partial`, `C121_bernoulli_positive`, `C121_diagonal`, `C121_identity`, `C121_isotropic`, `C121_use_mean`, `C122_create`, `C122_documented_form_refused`, `C122_elements`, `C122_layer`, `C123_residual`, `C124_index`, `C124_iterate_never_ends`, `C124_nested`, `C124_stale`, `C124_view_partial`, `C125_equality_partial`, `C125_independent`, `C125_new_distributions`, `C126_slice`, `C126_stats`, `C126_zero_partial`, `C127_copies_clash`, `C128_gain`, `C128_local`, `C128_offset`, `C128_shape`, `C128_silence`, `C129_enough`, `C129_fbank_partial`, `C129_rate_ignored`, `C129_refused`, `C129_too_many_filters`, `C129_triangle`, `C12_transition_posterior_is_marginal`, `C12_transition_posteriors_marginalise`, `C12_zero_evidence_is_zero`, `C130_gain`, `C130_inverse`, `C130_last_zero`, `C130_lifter`, `C130_orthonormal`, `C131_channel`, `C131_errors`, `C131_offset`, `C131_shape`, `C131_zero_mean`, `C132_round_trip_partial`, `C133_extract_iterate`, `C133_iteration`, `C133_iteration_twice`, `C133_savez`, `C134_class`, `C134_concentration_partial`, `C134_default_lost`, `C134_dirichlet`, `C134_dirichlet2`, `C134_hierarchical`, `C134_hierarchical_prior`, `C134_hyper_prior`, `C134_initial_mean`, `C134_stick_breaking`, `C134_stick_breaking_order`, `C134_zero_ignored`, `C135_default_fails`, `C135_errors`, `C135_keeps_unigram_partial`, `C135_prior_proper`, `C135_training`, `C135_training_valid`, `C135_unigram_lost`, `C135_unigram_lost_witness`, `C135_unseen_context_fails`, `C135_unseen_context_partial`, `C136_correlations_lost`, `C136_errors`, `C136_init_agrees`, `C136_new_law`, `C136_no_divergence`, `C136_posts`, `C136_prior_partial`, `C136_repeat`, `C136_units`, `C136_variance_fails`, `C137_fallback`, `C137_group_partial`, `C137_units`, `C139_clip`, `C139_errors`, `C139_frozen_conjugate`, `C139_frozen_fails`, `C139_frozen_moves`, `C139_frozen_partial`, `C139_rates_ignored`, `C139_resume`, `C139_sgd`, `C13_best_path_length`, `C13_best_path_optimal`, `C140_covered`, `C140_frames`, `C140_frames_fails`, `C140_offset`, `C141_lang`, `C141_lang_errors`, `C141_listed`, `C141_norm`, `C141_norm_errors`, `C142_center`, `C142_stack`, `C143_speakers`, `C143_states`, `C143_states_recover`, `C144_errors`, `C144_graph`, `C144_language`, `C144_language_silence`, `C144_order_fails`, `C144_prepare_errors`, `C144_uniform`, `C144_weights`, `C145_all_written`, `C145_errors`, `C145_ids`, `C145_line`, `C145_unknown_dropped`, `C145_unknown_fails`, `C146_key`, `C146_lines`, `C146_sil_fails`, `C146_sil_partial`, `C147_prefix_partial`, `C147_units`, `C148_clear`, `C148_history_partial`, `C148_stale`, `C148_unaligned`, `C149_class_prior_partial`, `C149_class_prior_scaled`, `C149_errors`, `C149_labelled`, `C149_objective`, `C149_training`, `C14_best_path_feasible`, `C150_decreases`, `C150_errors`, `C150_reported`, `C150_step`, `C150_training_partial`, `C151_language_partial`, `C151_transition_lost`, `C152_alignment`, `C152_decoding`, `C153_alignment`, `C153_free`, `C153_inventory`, `C153_path`, `C153_reentered`, `C153_too_short`, `C153_topologies`, `C154_blank_line`, `C154_first_missing`, `C154_forced`, `C154_lines`, `C154_mkali`, `C154_mkali_blank`, `C154_no_frames`, `C154_stops`, `C155_distribution`, `C155_files`, `C155_index_error`, `C155_log`, `C155_log_excess`, `C155_nan`, `C155_no_frames`, `C155_scale_mixtures`, `C155_scaled_partial`, `C155_units_lost`, `C155_units_partial`, `C155_unscaled`, `C156_decode_partial`, `C156_paths_partial`, `C156_stuck`, `C156_weights`, `C156_weights_sb`, `C157_aligned`, `C157_aligned_reset`, `C157_decrease`, `C157_decrease_witness`, `C157_infeasible`, `C157_runs`, `C157_step_partial`, `C158_best`, `C158_create`, `C158_decrease`, `C158_empty_batch`, `C158_mixture_step_partial`, `C158_mixture_training`, `C158_step_partial`, `C159_create`, `C159_joint_step`, `C159_joint_training`, `C159_reported`, `C159_reported_decrease`, `C15_fails`, `C15_result_partial`, `C15_single_state_broadcasts`, `C15_success_iff`, `C15_viterbi_fails`, `C160_aligned`, `C160_infeasible`, `C160_rows_decrease`, `C160_rows_decrease_witness`, `C160_rows_partial`, `C160_sticks`, `C161_aligned`, `C161_aligned_reset`, `C161_decrease`, `C161_decrease_witness`, `C161_hyper_aligned`, `C161_hyper_step_partial`, `C161_infeasible`, `C161_step_partial`, `C162_empty_line`, `C162_errors`, `C162_exact`, `C162_files`, `C162_mapping_partial`, `C162_merged`, `C162_names`, `C162_same`, `C162_scores`, `C163_errors`, `C163_features_partial`, `C163_gain`, `C163_local`, `C163_rate_ignored`, `C163_shift`, `C164_create_errors`, `C164_create_partial`, `C164_invalid`, `C164_no_objective`, `C164_trained_mean`, `C164_update`, `C165_hessian`, `C165_jacobians_partial`, `C165_semidefinite`, `C165_when`, `C165_wrong`, `C166_categoricalset`, `C166_exact_categorical`, `C166_exact_diagonal`, `C166_exact_full`, `C166_exact_isotropic`, `C166_hmm_bound`, `C166_hmm_converges`, `C166_jointset`, `C166_mixture_bound`, `C166_mixture_converges`, `C166_mixtureset`, `C166_normalset_diagonal`, `C166_normalset_full`, `C166_normalset_isotropic`, `C166_orderedset`, `C167_created_diagonal`, `C167_created_full`, `C167_created_isotropic`, `C167_dataset_stats`, `C167_diagonal_units`, `C167_full_affine`, `C167_hmm_training`, `C167_isotropic_similarity`, `C167_loop_training`, `C167_mixture_sets`, `C167_mixture_training`, `C167_pipeline`, `C167_shared_and_joint`, `C168_hmm_training`, `C168_loop_training`, `C168_loop_units`, `C168_mixture_sets`, `C168_mixture_training`, `C168_sets`, `C168_shared`, `C169_diagonal`, `C169_full`, `C169_isotropic`, `C169_limit`, `C169_no_data`, `C16_left_to_right`, `C16_per_frame`, `C16_phones`, `C170_best_path_and_evidence`, `C170_monotone`, `C170_offset`, `C170_only_path`, `C171_hmm_diagonal`, `C171_hmm_full`, `C171_hmm_isotropic`, `C171_mixture_diagonal`, `C171_mixture_full`, `C171_mixture_isotropic`, `C171_mixture_of_one`, `C172_categoricalset`, `C172_equilibrium`, `C172_first_step`, `C172_hmm`, `C172_hmm_mixtures`, `C172_identical_components`, `C172_jointset`, `C172_mixture`, `C172_mixtureset`, `C172_normalset_diagonal`, `C172_normalset_full`, `C172_normalset_isotropic`, `C172_orderedset`, `C172_single_component_moves`, `C172_single_component_weights`, `C173_decode_limits`, `C173_decode_tradeoff`, `C173_large_scale`, `C173_not_sharp`, `C173_posteriors_zero`, `C173_sharp_partial`, `C173_value_monotone`, `C173_zero_flat_partial`, `C173_zero_not_flat`, `C173_zero_scale`, `C174_errors`, `C174_files`, `C174_insertions`, `C174_mapping`, `C174_mapping_moves`, `C174_no_hit`, `C174_nothing_matches`, `C174_precision_above_one`, `C174_same`, `C174_scores_partial`, `C175_emissions`, `C175_extra_phone_fails`, `C175_one_state`, `C175_same_as_mkphones`, `C175_same_phone_fails`, `C175_states_of_topology_fails`, `C175_too_few_phones`, `C175_unit_failures`, `C175_units_partial`, `C176_convex`, `C176_hmm_gradient`, `C176_hmm_values`, `C176_impossible`, `C176_mixture`, `C176_one_score`, `C176_transitions`, `C176_viterbi`, `C177_below_posteriors`, `C177_given_exact`, `C177_given_frames`, `C177_impossible_accepted`, `C177_short`, `C177_stops`, `C177_strict`, `C177_training`, `C177_value`, `C177_viterbi_decrease`, `C178_cycle`, `C178_empty_batch`, `C178_harmonic`, `C178_last_batch`, `C178_mean`, `C178_one_pass`, `C178_rate_one`, `C178_unequal`, `C178_value`, `C178_weights`, `C179_decoding`, `C179_evidence`, `C179_gap_needed`, `C179_mixture`, `C179_state_posteriors`, `C179_tight`, `C179_transition_posteriors`, `C17_single_state_repeated`, `C180_compiled`, `C180_counts`, `C180_decode`, `C180_law`, `C180_mean`, `C180_nonspeech`, `C180_trained`, `C180_unit`, `C181_limit`, `C181_weights`, `C182_order`, `C182_unused`, `C183_installed`, `C183_mass_fails`, `C183_more_fails`, `C183_reversed`, `C183_sticks_mass`, `C183_sticks_more`, `C183_symmetric_partial`, `C18_mass_lost`, `C19_categorical_rows`, `C19_history`, `C19_refresh`, `C20_fails`, `C20_partial`, `C20_single_state_loop`, `C21_counts_are_expected_entries`, `C21_counts_nonneg`, `C21_stale_cache`, `C21_training_statistics`, `C21_weight_update`, `C22_bigram_counts`, `C22_bigram_entries`, `C22_bigram_installs_transpose`, `C22_bigram_refit`, `C22_fails`, `C22_stickbreaking_set`, `C22_symmetric_partial`, `C23_job_is_total`, `C23_no_job_fails`, `C23_order_irrelevant`, `C23_partition_irrelevant`, `C24_add_datasize`, `C24_add_ok_iff`, `C25_backward_empty_fails`, `C25_backward_idempotent`, `C25_backward_scales`, `C25_full_data`, `C25_minibatch_unbiased`, `C27_converges`, `C28_round_robin`, `C28_step_updates_one_group`, `C29_resume_transparent`, `C29_update_command`, `C30_no_leak`, `C30_no_stats_returns_to_prior`, `C31_dirichlet_stays_valid`, `C31_gamma_model_negation`, `C31_gamma_stays_valid`, `C31_isonormalgamma_stays_valid`, `C31_normalgamma_stays_valid`, `C31_normalwishart_stays_valid`, `C33_dirichlet_update_adds_counts`, `C35_normalgamma_roundtrip`, `C35_normalgamma_roundtrip_converse`, `C35_normalgamma_textbook_update`, `C36_isonormalgamma_conjugate_update`, `C36_isonormalgamma_roundtrip`, `C36_isonormalgamma_roundtrip_converse`, `C37_natural_error_iff`, `C37_normalwishart_converse`, `C37_normalwishart_roundtrip`, `C38_negation_never_roundtrips`, `C38_normaldiag_actual`, `C38_normaldiag_ratio_partial`, `C39_dirichlet_single`, `C39_kl_nonneg`, `C39_kl_zero_iff`, `C40_kl_decision`, `C40_kl_refuses_sizes`, `C41_expected_log_likelihood_eq`, `C41_expected_log_weights_subnormalised`, `C41_mean_weights`, `C42_categorical_log_prob`, `C42_diagonal_log_density`, `C42_fixed_partial`, `C42_full_log_density`, `C42_gamma_negation`, `C42_gamma_partial`, `C42_isotropic_log_density`, `C43_categorical_decode`, `C43_categorical_injective`, `C43_diagonal_decode`, `C43_full_decode`, `C43_full_factor`, `C43_full_injective`, `C43_gamma_decode`, `C43_isotropic_batch_raises`, `C43_isotropic_decode_partial`, `C43_isotropic_negation`, `C44_labelled`, `C44_mixture_set_accumulate`, `C44_mixture_set_agrees`, `C44_optimal`, `C44_responsibilities`, `C44_value`, `C44_value_le_best`, `C44_weights_update`, `C45_index_partial`, `C45_iterate`, `C45_open_slice_negation`, `C45_single_component_partial`, `C45_slice_partial`, `C45_step_negation`, `C46_accumulate`, `C47_adjoint`, `C47_default_order`, `C47_mass`, `C47_scatter`, `C47_succeeds_iff`, `C48_accumulate`, `C49_groups_in_order`, `C49_no_parameter_lost`, `C50_stick_posterior`, `C50_stick_statistics`, `C51_stick_weights`, `C51_stick_weights_eps`, `C52_concentration_update`, `C53_bounds`, `C53_minimum`, `C53_symmetric`, `C53_triangle`, `C53_zero_iff`, `C54_scripts_agree`, `C55_boundaries`, `C55_boundaries_sorted`, `C57_errors`, `C57_order_irrelevant`, `C57_statistics`, `C57_variance_nonneg`, `C58_blocks`, `C58_constant`, `C58_errors`, `C58_linear`, `C58_shape`, `C59_half_slope_partial`, `C59_not_slope`, `C60_framing`, `C60_other_branches`, `C61_bark_range`, `C61_bark_round_trip`, `C61_bark_round_trip'`, `C61_bark_strictMono`, `C61_inverse_strictMono`, `C61_mel_round_trip`, `C61_mel_round_trip'`, `C61_mel_strictMono`, `C62_all_neg_inf`, `C62_logsumexp`, `C63_ok_iff`, `C64_reserve`, `C65_empty`, `C65_floor`, `C65_idempotent`, `C65_not_posdef`, `C65_posdef`, `C65_unchanged`, `C65_unchanged_symmetric`, `C66_autoregressive`, `C66_build`, `C67_own_slice`, `C67_pdfvecs`, `C67_short_vector`, `C67_update_params`, `C68_minus_one_updates_every_utterance`, `C68_not_one_batch`, `C68_one_batch_partial`, `C69_fails`, `C69_partial`, `C70_all_replaced_partial`, `C71_distributed_equals_single`, `C71_exact_posterior`, `C71_reconnected`, `C72_dedup`, `C72_fixed_iff`, `C72_idempotent`, `C72_no_repeat`, `C73_learning_rate_ignored_on_resume`, `C74_first_missing_crashes`, `C74_missing_skipped_partial`, `C75_depends_on_set_order`, `C75_order_irrelevant_partial`, `C76_normalwishart_textbook_update`, `C76_normalwishart_update_order`, `C77_dims_agree`, `C77_fixed_stats_dim_negation`, `C77_full_stats_dim_negation`, `C77_full_subspace_dim`, `C77_full_wrong_dim`, `C78_last_member_wins_partial`, `C78_shared_parameter_negation`, `C80_stick_log_weights`, `C81_set_prior_mean_fails`, `C81_set_prior_mean_partial`, `C82_correction_is_logdet`, `C82_flow_partial`, `C82_law_partial`, `C82_no_flow_params_fails`, `C82_step_bijective`, `C82_step_triangular`, `C82_use_mean_fails`, `C82_use_mean_no_column`, `C83_decoding_language`, `C83_from_configuration`, `C84_group_without_unit_fails`, `C84_units_partial`, `C85_wishart_dim_mismatch`, `C85_wishart_kl_nonneg`, `C85_wishart_kl_zero_iff`, `C85_wishart_not_posDef`, `C85_wishart_tangent`, `C86_dirichlet_gain`, `C86_dirichlet_stationary`, `C86_isonormalgamma_gain`, `C86_isonormalgamma_stationary`, `C86_normalgamma_gain`, `C86_normalgamma_stationary`, `C86_normalwishart_gain`, `C86_normalwishart_stationary`, `C86_update_size`, `C87_categoricalset`, `C87_empty_batch`, `C87_jointset`, `C87_mixture_training`, `C87_mixtureset`, `C87_normalset_diagonal`, `C87_normalset_full`, `C87_normalset_isotropic`, `C87_orderedset`, `C88_hmm_training`, `C88_infeasible`, `C89_not_a_lower_bound`, `C89_reported_ge_objective`, `C90_dirichlet_optimal`, `C90_isonormalgamma_optimal`, `C90_normalgamma_optimal`, `C90_normalwishart_optimal`, `C91_diagonal`, `C91_full`, `C91_isotropic`, `C91_scalar_fails`, `C91_unknown_type`, `C92_diagonal`, `C92_full`, `C92_isotropic`, `C92_scalar_fails`, `C93_created_without_noise`, `C93_created_without_noise_full`, `C93_created_without_noise_isotropic`, `C93_symmetry_kept`, `C94_create_train_diagonal`, `C94_create_train_full`, `C94_create_train_isotropic`, `C94_mixtureset_weights`, `C94_weights`, `C95_diag_batch_negation`, `C95_diag_batch_raises`, `C95_diag_batch_wrong`, `C95_diag_log_norm`, `C95_diag_pdfwise`, `C95_diag_single`, `C95_full_batch`, `C95_full_log_norm`, `C95_full_single_raises`, `C95_gamma_log_norm`, `C96_diag_batch_one`, `C96_diag_batch_raises`, `C96_full_kl`, `C96_full_kl_dim`, `C96_full_roundtrip_negation`, `C96_full_roundtrip_partial`, `C97_diag_sample`, `C97_full_sample`, `C98_affine_prior`, `C98_default_size`, `C98_elbo_negation`, `C98_elbo_times_batch`, `C98_empty_batch_raises`, `C98_pairs_of_frames`, `C98_single_frame_partial`, `C99_dirichlet`, `C99_dirichlet_mean`, `C99_dirichlet_simplex`, `C99_gamma`, `C99_iso_normal_gamma`, `C99_log_weights`, `C99_normal_diag`, `C99_normal_full`, `C99_normal_gamma`, `C99_normal_wishart`

## Quot.sound, propext (82)

`C01_add_arc`, `C01_ids_and_arcs_unique`, `C01_ids_never_reused`, `C07_weight_of_path_partial`, `C107_param_stats`, `C117_extract_errors`, `C117_refused`, `C120_mapping`, `C120_refused`, `C120_single_state_merged`, `C122_read_partial`, `C122_refused`, `C124_element`, `C124_update_element`, `C125_element`, `C125_observers`, `C127_distinct_partial`, `C131_settings`, `C132_hidden`, `C132_overwritten`, `C132_renamed`, `C137_errors`, `C137_largest`, `C137_not_rooted`, `C137_rooted_partial`, `C137_same`, `C137_saved`, `C137_train_roots`, `C138_created`, `C138_errors`, `C138_initialised`, `C138_loops`, `C138_pairs_partial`, `C138_units`, `C140_errors`, `C142_errors`, `C143_states_unknown`, `C143_trans`, `C143_trans_errors`, `C146_clean`, `C146_group`, `C15_wrong_length_raises`, `C165_missing`, `C16_errors`, `C17_repetition_lost`, `C18_all_but_end_state_partial`, `C18_single_state_phone_is_zero`, `C26_full_step`, `C26_update_convex`, `C27_geometric`, `C31_gamma_model_actual_rate`, `C32_dirichlet_error_iff`, `C32_dirichlet_roundtrip`, `C32_dirichlet_roundtrip_converse`, `C33_dirichlet_update_order`, `C34_gamma_roundtrip`, `C34_gamma_roundtrip_converse`, `C34_gamma_roundtrip_dim`, `C35_normalgamma_update_order`, `C36_isonormalgamma_update_order`, `C45_empty_negation`, `C45_minus_one_negation`, `C46_columns`, `C46_expected_llh`, `C46_getitem`, `C46_length`, `C48_getitem`, `C48_llh_row`, `C49_bayesian_parameters`, `C55_counts`, `C55_fails_iff`, `C55_matching`, `C55_succeeds`, `C56_bound_by_reference_partial`, `C63_rows`, `C64_default_logger_fails`, `C68_schedule_covers_partial`, `C70_module_list_negation`, `C70_two_names_negation`, `C72_durations`, `C79_joint_partial`, `C79_repeated_negation`

## propext (25)

`C100_dimensions`, `C110_posteriors_destroyed`, `C110_without_option_partial`, `C120_frames`, `C123_merge`, `C124_updated`, `C125_hash_collision`, `C126_natural_form_none`, `C126_nested_key_dropped`, `C126_zero_list_no_effect`, `C137_group_fails`, `C141_removed_twice`, `C143_injective`, `C143_speakers_errors`, `C143_speakers_fails`, `C147_prefix_empty`, `C147_prefix_fails`, `C147_units_negative`, `C48_fails_iff`, `C49_joint`, `C55_sentinel_needed`, `C56_erases_reference`, `C56_index_error`, `C56_more_hits_than_hypotheses`, `C72_expand`
