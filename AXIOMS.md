# Axioms used by the property theorems

Output of `#print axioms`, grouped (555 theorems).

## `Classical.choice`, `Quot.sound`, `propext`

`C01_at_zero`, `C01_spectra_agree`, `C02_default_slope`, `C02_high_slope`, `C02_low_slope`, `C02_positive`, `C03_mann_lifetime_agrees`, `C04_scaling`, `C04_similarity`, `C04_values`, `C05_disproof`, `C05_double_scaling`, `C05_gamma_squared`, `C05_gamma_squared_true`, `C05_unit_scales_partial`, `C06_even`, `C06_nonneg`, `C06_positive`, `C07_fixed_exponent`, `C07_inertial`, `C07_large_eddies`, `C07_network`, `C08_accepts`, `C09_homogeneous`, `C09_rays`, `C100_accepted`, `C100_field`, `C100_not_dimensional`, `C100_one_point`, `C100_takeover`, `C100_tensor`, `C100_unit_length`, `C101_recorded`, `C101_value`, `C101_value_spectra`, `C102_attained`, `C102_continuous`, `C102_cross_jump`, `C102_cross_near`, `C102_objective`, `C103_initial_length`, `C103_one_function`, `C103_recorded_loss`, `C103_self_consistent`, `C104_adam`, `C104_adam_short`, `C104_coherence_silent`, `C104_instance`, `C104_mann_length`, `C104_not_the_gradient`, `C104_true_gradient`, `C105_backward_prediction`, `C105_div_documented`, `C105_div_errors`, `C105_div_floor`, `C105_div_order`, `C105_div_returned`, `C105_eval_grad`, `C105_norm`, `C106_coherence_drawn`, `C106_file_drawn`, `C106_fixed_spectrum`, `C106_lifetime_displaced`, `C106_lifetime_figure`, `C106_not_the_fit`, `C106_printed`, `C107_balanced`, `C107_exchange`, `C107_loss`, `C107_permutation`, `C107_predictions`, `C107_scaling`, `C107_unbounded`, `C108_always_reduced`, `C108_monotone`, `C108_rate`, `C108_run`, `C108_total`, `C109_first_step`, `C109_one_step`, `C109_own_data`, `C109_reach`, `C109_scales`, `C109_stationary`, `C109_step`, `C10_vk_kernel`, `C110_component`, `C110_generated`, `C110_order`, `C110_requested`, `C110_total`, `C111_covariance`, `C111_expected`, `C111_limit`, `C111_uncropped`, `C112_anisotropy`, `C112_converges`, `C112_domains`, `C112_edge`, `C112_realization`, `C113_converges`, `C113_curves`, `C113_edge`, `C114_failed`, `C114_failed_trace`, `C114_figure`, `C114_fit`, `C114_harmless`, `C114_misaligned`, `C114_outcome`, `C114_run`, `C114_series`, `C114_shares`, `C114_shares_bounds`, `C114_shares_fit`, `C115_averages`, `C115_info`, `C116_mirror_law`, `C116_no_lateral_flux`, `C116_second_moments`, `C117_isotropic`, `C117_lateral`, `C117_one_point`, `C118_descent`, `C118_epochs`, `C118_first_trial`, `C118_fit`, `C118_instance`, `C118_own_data`, `C118_stationary`, `C118_step`, `C118_step_example`, `C118_uphill`, `C119_high`, `C119_high_uw`, `C119_lifetimes`, `C119_low`, `C119_low_exact`, `C119_low_lifetimes`, `C119_mann`, `C11_mann_divergence_free`, `C11_nn_divergence_free`, `C120_before`, `C120_colours`, `C120_positions`, `C120_stretched`, `C120_zero`, `C121_units`, `C121_velocity`, `C122_almost_surely`, `C122_buffer`, `C122_continuous`, `C122_isotropic`, `C123_exchange`, `C123_no_vertical_flux`, `C123_reversed_law`, `C123_second_moments`, `C124_array`, `C124_created`, `C124_edit`, `C124_fit`, `C124_own_fit`, `C124_refused`, `C124_tied`, `C124_two`, `C125_earlier`, `C125_edit_elsewhere`, `C125_edit_persists`, `C125_own`, `C125_stream`, `C125_value`, `C126_exact`, `C126_grid`, `C126_grid_case`, `C126_large_unit`, `C126_mann`, `C126_scales`, `C126_small_unit`, `C126_tensor`, `C127_covariance`, `C127_long`, `C127_mean`, `C127_repeat`, `C127_repeat_bias`, `C127_variance`, `C128_columns`, `C128_rows`, `C128_uncorrelated`, `C128_wind`, `C129_forget`, `C129_fresh`, `C129_law`, `C129_mixed`, `C129_repeat`, `C129_splice`, `C12_mann_finite`, `C12_nn_finite`, `C130_finite`, `C130_given`, `C130_interior`, `C130_nonzero`, `C130_outcome`, `C130_profile`, `C131_case`, `C131_data`, `C131_growth`, `C131_negligible`, `C131_parabola`, `C131_share`, `C131_unbiased`, `C132_decay`, `C132_mann`, `C132_nn`, `C132_variance`, `C132_vk`, `C133_mann`, `C133_nn`, `C133_vk`, `C134_decay`, `C134_isotropic`, `C134_isotropic_point`, `C134_mann`, `C134_nn`, `C134_similarity`, `C134_variances`, `C134_vk`, `C135_bounds`, `C135_cross`, `C135_generator_matches_fitter`, `C135_mann`, `C135_nn`, `C135_periodic`, `C135_vk`, `C136_energy`, `C136_exact`, `C136_kernel`, `C137_exact`, `C137_lifetimes`, `C137_ww`, `C138_block`, `C138_exact`, `C138_log`, `C138_power`, `C138_returned`, `C139_coherence`, `C139_mse`, `C139_regularization`, `C13_mann_hermitian`, `C13_nn_hermitian`, `C13_vk_hermitian`, `C140_exact`, `C140_hermitian`, `C140_mirror`, `C141_field`, `C141_normalised`, `C141_vk`, `C142_faces`, `C142_fold`, `C142_images`, `C143_exact`, `C143_field`, `C143_kernel`, `C143_lifetime`, `C143_mann`, `C143_mann_field`, `C144_exact`, `C144_lifetimes`, `C144_spectra`, `C145_exact`, `C145_generate`, `C145_log`, `C145_power`, `C145_vk`, `C146_coherence`, `C146_exact`, `C146_first_order`, `C146_second_order`, `C146_total`, `C146_total_spectra`, `C147_exact`, `C147_mann`, `C147_shear`, `C148_coherence`, `C148_exact`, `C149_constructed`, `C149_exact`, `C149_exact_constructor`, `C149_field`, `C14_fitter_tensor`, `C14_kernel_square`, `C150_added`, `C150_coordinates`, `C150_exact`, `C150_linspace`, `C150_lipschitz`, `C150_outside`, `C150_value`, `C151_exact`, `C151_generate`, `C151_part`, `C151_rounded`, `C151_values`, `C152_computes`, `C152_exact`, `C152_exact_wind`, `C152_fit_lifetime`, `C152_lifetime`, `C152_network`, `C152_nonneg`, `C152_spectra`, `C152_uniform`, `C152_wind`, `C153_exact`, `C153_jump`, `C153_sizes`, `C15_psd`, `C16_disproof`, `C16_missing_length_scale`, `C16_unit_length_partial`, `C17_grid`, `C17_range`, `C18_auto_spectra_positive`, `C18_bound_positive`, `C18_lifetimes`, `C19_exact_zero`, `C19_returned_positive`, `C20_forward_repeatable`, `C20_forward_total`, `C20_only_current_parameters`, `C21_not_idempotent`, `C22_coherence_range`, `C22_grids`, `C23_disproof`, `C23_grid_frozen`, `C23_history_partial`, `C24_grid`, `C24_nan_raises`, `C24_zero_wavenumber`, `C25_bare_scales`, `C25_calibration_scales`, `C25_constructed`, `C25_rejects`, `C26_isotropy`, `C27_data_is_integral`, `C27_textbook`, `C28_kaimal`, `C29_fittable`, `C29_kaimal`, `C29_von_karman`, `C30_distance`, `C30_empty`, `C30_signs`, `C30_symmetric`, `C30_value`, `C31_first_order`, `C31_rescaling`, `C31_second_order`, `C31_too_short`, `C32_negative_height`, `C32_never_nan`, `C32_sum`, `C33_aligned`, `C33_failure_no_trace`, `C34_bounds`, `C34_ema`, `C34_infinite_absorbing`, `C35_factors`, `C35_never_increases`, `C35_no_early_advice`, `C35_priority`, `C35_small_windows`, `C36_bounds`, `C36_constant_between`, `C36_lower_bound`, `C37_layout`, `C37_length`, `C37_round_trip`, `C37_wrong_length`, `C38_noise`, `C38_outcome`, `C38_scales`, `C39_bounded`, `C39_fixed_spectrum_raises`, `C39_returns`, `C39_zero_epochs`, `C40_closure`, `C40_initial`, `C40_mismatch`, `C40_prediction`, `C40_target`, `C40_three`, `C41_panels_partial`, `C41_stored_refuted`, `C41_stored_swapped`, `C42_file_name`, `C42_frame`, `C42_rejected`, `C42_round_trip`, `C43_axes`, `C43_every_file`, `C43_faithful_partial`, `C43_refuted`, `C44_selection`, `C45_fill`, `C46_antitone`, `C46_bounds`, `C46_phases`, `C47_cases`, `C47_constant`, `C48_best_case`, `C49_shapes`, `C50_zero_scale`, `C51_block`, `C51_overlap`, `C51_stream`, `C51_tiling`, `C52_append_only`, `C52_low_frequency`, `C52_split`, `C53_rejected`, `C54_accepts`, `C55_field`, `C55_unit_mean_square`, `C56_energy_invariant`, `C57_log`, `C57_log_degenerate`, `C57_power`, `C58_addition`, `C59_low_frequency`, `C59_seeded`, `C59_weights`, `C60_affine`, `C60_linear`, `C60_mean_profile`, `C60_outcome`, `C60_quadratic`, `C61_linear`, `C61_shift`, `C62_divergence_free`, `C62_nyquist_restriction`, `C62_zero_mean`, `C63_even_not_real`, `C63_kernels_odd`, `C63_real`, `C64_fft_fftw`, `C65_stateless`, `C66_grid`, `C66_outcome`, `C66_scalar_noise`, `C66_unknown_method`, `C67_grid`, `C67_total`, `C68_window`, `C69_extent_partial`, `C69_extent_refuted`, `C70_divergence_free`, `C70_generated`, `C70_nyquist_refuted`, `C70_spectral`, `C70_zero_mean`, `C71_defined`, `C71_sign`, `C71_variance`, `C72_bilinear`, `C72_bounded`, `C72_nodes`, `C72_outside`, `C72_slice`, `C73_estimate`, `C73_nyquist`, `C74_documented`, `C74_isotropic`, `C74_nonneg_even`, `C74_spectra`, `C74_zero_wavenumber`, `C75_components`, `C75_magnitude`, `C75_refused`, `C75_reshape_false`, `C76_profile_nodes`, `C76_vtk`, `C77_rdt_solution`, `C78_plane_k1_zero`, `C78_underestimates`, `C79_disabled_term_dominates`, `C80_own_data`, `C81_any_grid`, `C81_covariance`, `C81_generator`, `C81_generator_any_grid`, `C81_stationary`, `C81_wave`, `C82_generated_stationary`, `C82_generated_variance`, `C82_stationary`, `C82_variance`, `C83_energy`, `C84_consistent`, `C85_almost_surely`, `C85_no_energy`, `C86_domain`, `C86_mesh`, `C86_mesh_zero`, `C86_run`, `C86_square`, `C87_variance`, `C88_disagree`, `C88_half`, `C89_lifetime`, `C89_turnover`, `C90_bounds`, `C90_high`, `C90_low`, `C90_slopes`, `C91_ends`, `C91_exponent`, `C92_broadcast`, `C92_only_vf`, `C92_scalar_field`, `C92_vector_default`, `C92_vector_field`, `C93_dct_corner`, `C93_dct_white`, `C93_dst_covariance`, `C93_dst_not_stationary`, `C93_dst_white`, `C94_domain_diverges`, `C94_floor_bias`, `C94_lifetimes`, `C94_refinement`, `C95_generator_matches_fitter`, `C95_limit_mann`, `C95_limit_nn`, `C95_limit_vk`, `C95_parseval`, `C95_spectrum`, `C96_decay`, `C96_far_separations`, `C96_recurrence`, `C96_refinement`, `C97_blocks`, `C97_mean_wind`, `C98_continuation`, `C98_covariance`, `C98_jump`, `C98_jump_average`, `C98_returned`, `C99_blocks_not_gaussian`, `C99_gaussian`, `C99_stationary`, `C99_windows`

## `Quot.sound`

`C48_domain`

## `Quot.sound`, `propext`

`C08_rejects`, `C48_loader`

## `propext`

`C08_rejects_nonint`
