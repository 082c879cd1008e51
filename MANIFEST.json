{
 "claims": [
  {
   "property": "C01",
   "status": "proved",
   "theorems": [
    "Verif.C01_spectra_agree",
    "Verif.C01_at_zero"
   ],
   "note": ""
  },
  {
   "property": "C02",
   "status": "proved",
   "theorems": [
    "Verif.C02_positive",
    "Verif.C02_low_slope",
    "Verif.C02_high_slope",
    "Verif.C02_default_slope"
   ],
   "note": ""
  },
  {
   "property": "C03",
   "status": "proved",
   "theorems": [
    "Verif.C03_mann_lifetime_agrees"
   ],
   "note": ""
  },
  {
   "property": "C04",
   "status": "proved",
   "theorems": [
    "Verif.C04_scaling",
    "Verif.C04_similarity",
    "Verif.C04_values"
   ],
   "note": ""
  },
  {
   "property": "C05",
   "status": "partial",
   "theorems": [
    "Verif.C05_double_scaling",
    "Verif.C05_unit_scales_partial",
    "Verif.C05_disproof",
    "Verif.C05_gamma_squared",
    "Verif.C05_gamma_squared_true"
   ],
   "note": "The claim is false when the scales given at construction are not 1 (C05_disproof, C05_gamma_squared); C05_unit_scales_partial is the part that holds."
  },
  {
   "property": "C06",
   "status": "proved",
   "theorems": [
    "Verif.C06_even",
    "Verif.C06_nonneg",
    "Verif.C06_positive"
   ],
   "note": ""
  },
  {
   "property": "C07",
   "status": "proved",
   "theorems": [
    "Verif.C07_inertial",
    "Verif.C07_large_eddies",
    "Verif.C07_network",
    "Verif.C07_fixed_exponent"
   ],
   "note": ""
  },
  {
   "property": "C08",
   "status": "proved",
   "theorems": [
    "Verif.C08_rejects",
    "Verif.C08_accepts",
    "Verif.C08_rejects_nonint"
   ],
   "note": ""
  },
  {
   "property": "C09",
   "status": "proved",
   "theorems": [
    "Verif.C09_homogeneous",
    "Verif.C09_rays"
   ],
   "note": ""
  },
  {
   "property": "C10",
   "status": "proved",
   "theorems": [
    "Verif.C10_vk_kernel"
   ],
   "note": ""
  },
  {
   "property": "C11",
   "status": "proved",
   "theorems": [
    "Verif.C11_mann_divergence_free",
    "Verif.C11_nn_divergence_free"
   ],
   "note": ""
  },
  {
   "property": "C12",
   "status": "proved",
   "theorems": [
    "Verif.C12_mann_finite",
    "Verif.C12_nn_finite"
   ],
   "note": ""
  },
  {
   "property": "C13",
   "status": "proved",
   "theorems": [
    "Verif.C13_vk_hermitian",
    "Verif.C13_mann_hermitian",
    "Verif.C13_nn_hermitian"
   ],
   "note": ""
  },
  {
   "property": "C14",
   "status": "proved",
   "theorems": [
    "Verif.C14_kernel_square",
    "Verif.C14_fitter_tensor"
   ],
   "note": ""
  },
  {
   "property": "C15",
   "status": "proved",
   "theorems": [
    "Verif.C15_psd"
   ],
   "note": ""
  },
  {
   "property": "C16",
   "status": "partial",
   "theorems": [
    "Verif.C16_unit_length_partial",
    "Verif.C16_missing_length_scale",
    "Verif.C16_disproof"
   ],
   "note": "The claim is false when the trained length scale is not 1 (C16_disproof); C16_unit_length_partial is the part that holds, C16_missing_length_scale says what is computed instead."
  },
  {
   "property": "C17",
   "status": "proved",
   "theorems": [
    "Verif.C17_grid",
    "Verif.C17_range"
   ],
   "note": ""
  },
  {
   "property": "C18",
   "status": "proved",
   "theorems": [
    "Verif.C18_auto_spectra_positive",
    "Verif.C18_bound_positive",
    "Verif.C18_lifetimes"
   ],
   "note": ""
  },
  {
   "property": "C19",
   "status": "proved",
   "theorems": [
    "Verif.C19_exact_zero",
    "Verif.C19_returned_positive"
   ],
   "note": ""
  },
  {
   "property": "C20",
   "status": "proved",
   "theorems": [
    "Verif.C20_forward_repeatable",
    "Verif.C20_only_current_parameters",
    "Verif.C20_forward_total"
   ],
   "note": ""
  },
  {
   "property": "C21",
   "status": "proved",
   "theorems": [
    "Verif.C21_not_idempotent"
   ],
   "note": ""
  },
  {
   "property": "C22",
   "status": "proved",
   "theorems": [
    "Verif.C22_coherence_range",
    "Verif.C22_grids"
   ],
   "note": ""
  },
  {
   "property": "C23",
   "status": "partial",
   "theorems": [
    "Verif.C23_history_partial",
    "Verif.C23_grid_frozen",
    "Verif.C23_disproof"
   ],
   "note": "The claim is false for objects built without a coherence grid (C23_disproof, C23_grid_frozen); C23_history_partial is the part that holds."
  },
  {
   "property": "C24",
   "status": "proved",
   "theorems": [
    "Verif.C24_nan_raises",
    "Verif.C24_zero_wavenumber",
    "Verif.C24_grid"
   ],
   "note": ""
  },
  {
   "property": "C25",
   "status": "proved",
   "theorems": [
    "Verif.C25_calibration_scales",
    "Verif.C25_rejects",
    "Verif.C25_bare_scales",
    "Verif.C25_constructed"
   ],
   "note": ""
  },
  {
   "property": "C26",
   "status": "proved",
   "theorems": [
    "Verif.C26_isotropy"
   ],
   "note": ""
  },
  {
   "property": "C27",
   "status": "proved",
   "theorems": [
    "Verif.C27_data_is_integral",
    "Verif.C27_textbook"
   ],
   "note": ""
  },
  {
   "property": "C28",
   "status": "proved",
   "theorems": [
    "Verif.C28_kaimal"
   ],
   "note": ""
  },
  {
   "property": "C29",
   "status": "proved",
   "theorems": [
    "Verif.C29_von_karman",
    "Verif.C29_kaimal",
    "Verif.C29_fittable"
   ],
   "note": ""
  },
  {
   "property": "C30",
   "status": "proved",
   "theorems": [
    "Verif.C30_value",
    "Verif.C30_distance",
    "Verif.C30_symmetric",
    "Verif.C30_signs",
    "Verif.C30_empty"
   ],
   "note": ""
  },
  {
   "property": "C31",
   "status": "proved",
   "theorems": [
    "Verif.C31_first_order",
    "Verif.C31_second_order",
    "Verif.C31_rescaling",
    "Verif.C31_too_short"
   ],
   "note": ""
  },
  {
   "property": "C32",
   "status": "proved",
   "theorems": [
    "Verif.C32_sum",
    "Verif.C32_never_nan",
    "Verif.C32_negative_height"
   ],
   "note": ""
  },
  {
   "property": "C33",
   "status": "proved",
   "theorems": [
    "Verif.C33_failure_no_trace",
    "Verif.C33_aligned"
   ],
   "note": ""
  },
  {
   "property": "C34",
   "status": "proved",
   "theorems": [
    "Verif.C34_ema",
    "Verif.C34_bounds",
    "Verif.C34_infinite_absorbing"
   ],
   "note": ""
  },
  {
   "property": "C35",
   "status": "proved",
   "theorems": [
    "Verif.C35_never_increases",
    "Verif.C35_no_early_advice",
    "Verif.C35_priority",
    "Verif.C35_factors",
    "Verif.C35_small_windows"
   ],
   "note": ""
  },
  {
   "property": "C36",
   "status": "proved",
   "theorems": [
    "Verif.C36_bounds",
    "Verif.C36_constant_between",
    "Verif.C36_lower_bound"
   ],
   "note": ""
  },
  {
   "property": "C37",
   "status": "proved",
   "theorems": [
    "Verif.C37_round_trip",
    "Verif.C37_wrong_length",
    "Verif.C37_layout",
    "Verif.C37_length"
   ],
   "note": ""
  },
  {
   "property": "C38",
   "status": "proved",
   "theorems": [
    "Verif.C38_outcome",
    "Verif.C38_scales",
    "Verif.C38_noise"
   ],
   "note": ""
  },
  {
   "property": "C39",
   "status": "proved",
   "theorems": [
    "Verif.C39_returns",
    "Verif.C39_fixed_spectrum_raises",
    "Verif.C39_zero_epochs",
    "Verif.C39_bounded"
   ],
   "note": ""
  },
  {
   "property": "C40",
   "status": "proved",
   "theorems": [
    "Verif.C40_target",
    "Verif.C40_mismatch",
    "Verif.C40_prediction",
    "Verif.C40_closure",
    "Verif.C40_three",
    "Verif.C40_initial"
   ],
   "note": ""
  },
  {
   "property": "C41",
   "status": "partial",
   "theorems": [
    "Verif.C41_panels_partial",
    "Verif.C41_stored_swapped",
    "Verif.C41_stored_refuted"
   ],
   "note": "False for six stored components: panels 23 and 12 are exchanged (C41_stored_swapped, C41_stored_refuted); C41_panels_partial is the part that holds."
  },
  {
   "property": "C42",
   "status": "proved",
   "theorems": [
    "Verif.C42_round_trip",
    "Verif.C42_file_name",
    "Verif.C42_rejected",
    "Verif.C42_frame"
   ],
   "note": ""
  },
  {
   "property": "C43",
   "status": "partial",
   "theorems": [
    "Verif.C43_faithful_partial",
    "Verif.C43_refuted",
    "Verif.C43_axes",
    "Verif.C43_every_file"
   ],
   "note": "False for complete files not sorted by (sep_idx, freq_idx), for incomplete files with indices not starting at 0, and for files with a duplicated and a missing row (C43_refuted); C43_faithful_partial is the part that holds."
  },
  {
   "property": "C44",
   "status": "proved",
   "theorems": [
    "Verif.C44_selection"
   ],
   "note": ""
  },
  {
   "property": "C45",
   "status": "proved",
   "theorems": [
    "Verif.C45_fill"
   ],
   "note": ""
  },
  {
   "property": "C46",
   "status": "proved",
   "theorems": [
    "Verif.C46_bounds",
    "Verif.C46_antitone",
    "Verif.C46_phases"
   ],
   "note": ""
  },
  {
   "property": "C47",
   "status": "proved",
   "theorems": [
    "Verif.C47_constant",
    "Verif.C47_cases"
   ],
   "note": ""
  },
  {
   "property": "C48",
   "status": "proved",
   "theorems": [
    "Verif.C48_domain",
    "Verif.C48_loader",
    "Verif.C48_best_case"
   ],
   "note": ""
  },
  {
   "property": "C49",
   "status": "proved",
   "theorems": [
    "Verif.C49_shapes"
   ],
   "note": ""
  },
  {
   "property": "C50",
   "status": "proved",
   "theorems": [
    "Verif.C50_zero_scale"
   ],
   "note": ""
  },
  {
   "property": "C51",
   "status": "proved",
   "theorems": [
    "Verif.C51_stream",
    "Verif.C51_overlap",
    "Verif.C51_tiling",
    "Verif.C51_block"
   ],
   "note": ""
  },
  {
   "property": "C52",
   "status": "proved",
   "theorems": [
    "Verif.C52_append_only",
    "Verif.C52_split",
    "Verif.C52_low_frequency"
   ],
   "note": ""
  },
  {
   "property": "C53",
   "status": "proved",
   "theorems": [
    "Verif.C53_rejected"
   ],
   "note": ""
  },
  {
   "property": "C54",
   "status": "proved",
   "theorems": [
    "Verif.C54_accepts"
   ],
   "note": ""
  },
  {
   "property": "C55",
   "status": "proved",
   "theorems": [
    "Verif.C55_unit_mean_square",
    "Verif.C55_field"
   ],
   "note": ""
  },
  {
   "property": "C56",
   "status": "proved",
   "theorems": [
    "Verif.C56_energy_invariant"
   ],
   "note": ""
  },
  {
   "property": "C57",
   "status": "proved",
   "theorems": [
    "Verif.C57_power",
    "Verif.C57_log",
    "Verif.C57_log_degenerate"
   ],
   "note": ""
  },
  {
   "property": "C58",
   "status": "proved",
   "theorems": [
    "Verif.C58_addition"
   ],
   "note": ""
  },
  {
   "property": "C59",
   "status": "proved",
   "theorems": [
    "Verif.C59_seeded",
    "Verif.C59_weights",
    "Verif.C59_low_frequency"
   ],
   "note": ""
  },
  {
   "property": "C60",
   "status": "proved",
   "theorems": [
    "Verif.C60_outcome",
    "Verif.C60_linear",
    "Verif.C60_affine",
    "Verif.C60_quadratic",
    "Verif.C60_mean_profile"
   ],
   "note": ""
  },
  {
   "property": "C61",
   "status": "proved",
   "theorems": [
    "Verif.C61_linear",
    "Verif.C61_shift"
   ],
   "note": ""
  },
  {
   "property": "C62",
   "status": "proved",
   "theorems": [
    "Verif.C62_zero_mean",
    "Verif.C62_divergence_free",
    "Verif.C62_nyquist_restriction"
   ],
   "note": ""
  },
  {
   "property": "C63",
   "status": "proved",
   "theorems": [
    "Verif.C63_real",
    "Verif.C63_kernels_odd",
    "Verif.C63_even_not_real"
   ],
   "note": ""
  },
  {
   "property": "C64",
   "status": "proved",
   "theorems": [
    "Verif.C64_fft_fftw"
   ],
   "note": ""
  },
  {
   "property": "C65",
   "status": "proved",
   "theorems": [
    "Verif.C65_stateless"
   ],
   "note": ""
  },
  {
   "property": "C66",
   "status": "proved",
   "theorems": [
    "Verif.C66_outcome",
    "Verif.C66_grid",
    "Verif.C66_scalar_noise",
    "Verif.C66_unknown_method"
   ],
   "note": ""
  },
  {
   "property": "C67",
   "status": "proved",
   "theorems": [
    "Verif.C67_grid",
    "Verif.C67_total"
   ],
   "note": ""
  },
  {
   "property": "C68",
   "status": "proved",
   "theorems": [
    "Verif.C68_window"
   ],
   "note": ""
  },
  {
   "property": "C69",
   "status": "partial",
   "theorems": [
    "Verif.C69_extent_partial",
    "Verif.C69_extent_refuted"
   ],
   "note": "False when the two spacings of the configuration differ (C69_extent_refuted); C69_extent_partial is the part that holds."
  },
  {
   "property": "C70",
   "status": "proved",
   "theorems": [
    "Verif.C70_spectral",
    "Verif.C70_divergence_free",
    "Verif.C70_zero_mean",
    "Verif.C70_nyquist_refuted",
    "Verif.C70_generated"
   ],
   "note": ""
  },
  {
   "property": "C71",
   "status": "proved",
   "theorems": [
    "Verif.C71_variance",
    "Verif.C71_sign",
    "Verif.C71_defined"
   ],
   "note": ""
  },
  {
   "property": "C72",
   "status": "proved",
   "theorems": [
    "Verif.C72_bilinear",
    "Verif.C72_nodes",
    "Verif.C72_bounded",
    "Verif.C72_outside",
    "Verif.C72_slice"
   ],
   "note": ""
  },
  {
   "property": "C73",
   "status": "proved",
   "theorems": [
    "Verif.C73_estimate",
    "Verif.C73_nyquist"
   ],
   "note": ""
  },
  {
   "property": "C74",
   "status": "proved",
   "theorems": [
    "Verif.C74_zero_wavenumber",
    "Verif.C74_nonneg_even",
    "Verif.C74_documented",
    "Verif.C74_isotropic",
    "Verif.C74_spectra"
   ],
   "note": ""
  },
  {
   "property": "C75",
   "status": "proved",
   "theorems": [
    "Verif.C75_components",
    "Verif.C75_magnitude",
    "Verif.C75_refused",
    "Verif.C75_reshape_false"
   ],
   "note": ""
  },
  {
   "property": "C76",
   "status": "proved",
   "theorems": [
    "Verif.C76_vtk",
    "Verif.C76_profile_nodes"
   ],
   "note": ""
  },
  {
   "property": "C77",
   "status": "proved",
   "theorems": [
    "Verif.C77_rdt_solution"
   ],
   "note": ""
  },
  {
   "property": "C78",
   "status": "proved",
   "theorems": [
    "Verif.C78_plane_k1_zero",
    "Verif.C78_underestimates"
   ],
   "note": ""
  },
  {
   "property": "C79",
   "status": "proved",
   "theorems": [
    "Verif.C79_disabled_term_dominates"
   ],
   "note": ""
  },
  {
   "property": "C80",
   "status": "proved",
   "theorems": [
    "Verif.C80_own_data"
   ],
   "note": ""
  },
  {
   "property": "C81",
   "status": "proved",
   "theorems": [
    "Verif.C81_any_grid",
    "Verif.C81_stationary",
    "Verif.C81_generator_any_grid",
    "Verif.C81_wave",
    "Verif.C81_covariance",
    "Verif.C81_generator"
   ],
   "note": ""
  },
  {
   "property": "C82",
   "status": "proved",
   "theorems": [
    "Verif.C82_stationary",
    "Verif.C82_variance",
    "Verif.C82_generated_stationary",
    "Verif.C82_generated_variance"
   ],
   "note": ""
  },
  {
   "property": "C83",
   "status": "proved",
   "theorems": [
    "Verif.C83_energy"
   ],
   "note": ""
  },
  {
   "property": "C84",
   "status": "proved",
   "theorems": [
    "Verif.C84_consistent"
   ],
   "note": ""
  },
  {
   "property": "C85",
   "status": "proved",
   "theorems": [
    "Verif.C85_almost_surely",
    "Verif.C85_no_energy"
   ],
   "note": ""
  },
  {
   "property": "C86",
   "status": "proved",
   "theorems": [
    "Verif.C86_run",
    "Verif.C86_square",
    "Verif.C86_mesh",
    "Verif.C86_mesh_zero",
    "Verif.C86_domain"
   ],
   "note": ""
  },
  {
   "property": "C87",
   "status": "proved",
   "theorems": [
    "Verif.C87_variance"
   ],
   "note": ""
  },
  {
   "property": "C88",
   "status": "proved",
   "theorems": [
    "Verif.C88_half",
    "Verif.C88_disagree"
   ],
   "note": ""
  },
  {
   "property": "C89",
   "status": "proved",
   "theorems": [
    "Verif.C89_turnover",
    "Verif.C89_lifetime"
   ],
   "note": ""
  },
  {
   "property": "C90",
   "status": "proved",
   "theorems": [
    "Verif.C90_bounds",
    "Verif.C90_high",
    "Verif.C90_low",
    "Verif.C90_slopes"
   ],
   "note": ""
  },
  {
   "property": "C91",
   "status": "proved",
   "theorems": [
    "Verif.C91_exponent",
    "Verif.C91_ends"
   ],
   "note": ""
  },
  {
   "property": "C92",
   "status": "proved",
   "theorems": [
    "Verif.C92_broadcast",
    "Verif.C92_vector_field",
    "Verif.C92_vector_default",
    "Verif.C92_scalar_field",
    "Verif.C92_only_vf"
   ],
   "note": ""
  },
  {
   "property": "C93",
   "status": "proved",
   "theorems": [
    "Verif.C93_dst_white",
    "Verif.C93_dst_covariance",
    "Verif.C93_dst_not_stationary",
    "Verif.C93_dct_white",
    "Verif.C93_dct_corner"
   ],
   "note": ""
  },
  {
   "property": "C94",
   "status": "proved",
   "theorems": [
    "Verif.C94_refinement",
    "Verif.C94_lifetimes",
    "Verif.C94_floor_bias",
    "Verif.C94_domain_diverges"
   ],
   "note": ""
  },
  {
   "property": "C95",
   "status": "proved",
   "theorems": [
    "Verif.C95_parseval",
    "Verif.C95_spectrum",
    "Verif.C95_limit_vk",
    "Verif.C95_limit_mann",
    "Verif.C95_limit_nn",
    "Verif.C95_generator_matches_fitter"
   ],
   "note": ""
  },
  {
   "property": "C96",
   "status": "proved",
   "theorems": [
    "Verif.C96_refinement",
    "Verif.C96_decay",
    "Verif.C96_recurrence",
    "Verif.C96_far_separations"
   ],
   "note": ""
  },
  {
   "property": "C97",
   "status": "proved",
   "theorems": [
    "Verif.C97_blocks",
    "Verif.C97_mean_wind"
   ],
   "note": ""
  },
  {
   "property": "C98",
   "status": "proved",
   "theorems": [
    "Verif.C98_continuation",
    "Verif.C98_returned",
    "Verif.C98_jump",
    "Verif.C98_jump_average",
    "Verif.C98_covariance"
   ],
   "note": ""
  },
  {
   "property": "C99",
   "status": "proved",
   "theorems": [
    "Verif.C99_gaussian",
    "Verif.C99_stationary",
    "Verif.C99_windows",
    "Verif.C99_blocks_not_gaussian"
   ],
   "note": ""
  },
  {
   "property": "C100",
   "status": "proved",
   "theorems": [
    "Verif.C100_accepted",
    "Verif.C100_takeover",
    "Verif.C100_tensor",
    "Verif.C100_unit_length",
    "Verif.C100_not_dimensional",
    "Verif.C100_field",
    "Verif.C100_one_point"
   ],
   "note": ""
  },
  {
   "property": "C101",
   "status": "proved",
   "theorems": [
    "Verif.C101_value",
    "Verif.C101_value_spectra",
    "Verif.C101_recorded"
   ],
   "note": ""
  },
  {
   "property": "C102",
   "status": "proved",
   "theorems": [
    "Verif.C102_objective",
    "Verif.C102_attained",
    "Verif.C102_cross_near",
    "Verif.C102_continuous",
    "Verif.C102_cross_jump"
   ],
   "note": ""
  },
  {
   "property": "C103",
   "status": "proved",
   "theorems": [
    "Verif.C103_one_function",
    "Verif.C103_recorded_loss",
    "Verif.C103_self_consistent",
    "Verif.C103_initial_length"
   ],
   "note": ""
  },
  {
   "property": "C104",
   "status": "proved",
   "theorems": [
    "Verif.C104_true_gradient",
    "Verif.C104_mann_length",
    "Verif.C104_not_the_gradient",
    "Verif.C104_coherence_silent",
    "Verif.C104_instance",
    "Verif.C104_adam",
    "Verif.C104_adam_short"
   ],
   "note": ""
  },
  {
   "property": "C105",
   "status": "proved",
   "theorems": [
    "Verif.C105_div_errors",
    "Verif.C105_div_documented",
    "Verif.C105_div_returned",
    "Verif.C105_div_order",
    "Verif.C105_div_floor",
    "Verif.C105_eval_grad",
    "Verif.C105_backward_prediction",
    "Verif.C105_norm"
   ],
   "note": ""
  },
  {
   "property": "C106",
   "status": "proved",
   "theorems": [
    "Verif.C106_coherence_drawn",
    "Verif.C106_file_drawn",
    "Verif.C106_printed",
    "Verif.C106_fixed_spectrum",
    "Verif.C106_lifetime_figure",
    "Verif.C106_lifetime_displaced",
    "Verif.C106_not_the_fit"
   ],
   "note": ""
  },
  {
   "property": "C107",
   "status": "proved",
   "theorems": [
    "Verif.C107_scaling",
    "Verif.C107_permutation",
    "Verif.C107_predictions",
    "Verif.C107_loss",
    "Verif.C107_unbounded",
    "Verif.C107_exchange",
    "Verif.C107_balanced"
   ],
   "note": ""
  },
  {
   "property": "C108",
   "status": "proved",
   "theorems": [
    "Verif.C108_rate",
    "Verif.C108_monotone",
    "Verif.C108_total",
    "Verif.C108_run",
    "Verif.C108_always_reduced"
   ],
   "note": ""
  },
  {
   "property": "C109",
   "status": "proved",
   "theorems": [
    "Verif.C109_step",
    "Verif.C109_first_step",
    "Verif.C109_reach",
    "Verif.C109_scales",
    "Verif.C109_one_step",
    "Verif.C109_stationary",
    "Verif.C109_own_data"
   ],
   "note": ""
  },
  {
   "property": "C110",
   "status": "proved",
   "theorems": [
    "Verif.C110_component",
    "Verif.C110_total",
    "Verif.C110_order",
    "Verif.C110_requested",
    "Verif.C110_generated"
   ],
   "note": ""
  },
  {
   "property": "C111",
   "status": "proved",
   "theorems": [
    "Verif.C111_covariance",
    "Verif.C111_expected",
    "Verif.C111_uncropped",
    "Verif.C111_limit"
   ],
   "note": ""
  },
  {
   "property": "C112",
   "status": "proved",
   "theorems": [
    "Verif.C112_realization",
    "Verif.C112_anisotropy",
    "Verif.C112_converges",
    "Verif.C112_edge",
    "Verif.C112_domains"
   ],
   "note": ""
  },
  {
   "property": "C113",
   "status": "proved",
   "theorems": [
    "Verif.C113_curves",
    "Verif.C113_converges",
    "Verif.C113_edge"
   ],
   "note": ""
  },
  {
   "property": "C114",
   "status": "proved",
   "theorems": [
    "Verif.C114_harmless",
    "Verif.C114_series",
    "Verif.C114_shares",
    "Verif.C114_shares_bounds",
    "Verif.C114_fit",
    "Verif.C114_outcome",
    "Verif.C114_shares_fit",
    "Verif.C114_misaligned",
    "Verif.C114_figure",
    "Verif.C114_failed",
    "Verif.C114_failed_trace",
    "Verif.C114_run"
   ],
   "note": ""
  },
  {
   "property": "C115",
   "status": "proved",
   "theorems": [
    "Verif.C115_info",
    "Verif.C115_averages"
   ],
   "note": ""
  },
  {
   "property": "C116",
   "status": "proved",
   "theorems": [
    "Verif.C116_mirror_law",
    "Verif.C116_second_moments",
    "Verif.C116_no_lateral_flux"
   ],
   "note": ""
  },
  {
   "property": "C117",
   "status": "proved",
   "theorems": [
    "Verif.C117_lateral",
    "Verif.C117_isotropic",
    "Verif.C117_one_point"
   ],
   "note": ""
  },
  {
   "property": "C118",
   "status": "proved",
   "theorems": [
    "Verif.C118_step",
    "Verif.C118_descent",
    "Verif.C118_first_trial",
    "Verif.C118_uphill",
    "Verif.C118_step_example",
    "Verif.C118_epochs",
    "Verif.C118_fit",
    "Verif.C118_instance",
    "Verif.C118_stationary",
    "Verif.C118_own_data"
   ],
   "note": ""
  },
  {
   "property": "C119",
   "status": "proved",
   "theorems": [
    "Verif.C119_high",
    "Verif.C119_high_uw",
    "Verif.C119_lifetimes",
    "Verif.C119_low",
    "Verif.C119_low_lifetimes",
    "Verif.C119_low_exact",
    "Verif.C119_mann"
   ],
   "note": ""
  },
  {
   "property": "C120",
   "status": "proved",
   "theorems": [
    "Verif.C120_before",
    "Verif.C120_positions",
    "Verif.C120_colours",
    "Verif.C120_zero",
    "Verif.C120_stretched"
   ],
   "note": ""
  },
  {
   "property": "C121",
   "status": "proved",
   "theorems": [
    "Verif.C121_units",
    "Verif.C121_velocity"
   ],
   "note": ""
  },
  {
   "property": "C122",
   "status": "proved",
   "theorems": [
    "Verif.C122_continuous",
    "Verif.C122_buffer",
    "Verif.C122_isotropic",
    "Verif.C122_almost_surely"
   ],
   "note": ""
  },
  {
   "property": "C123",
   "status": "proved",
   "theorems": [
    "Verif.C123_reversed_law",
    "Verif.C123_second_moments",
    "Verif.C123_exchange",
    "Verif.C123_no_vertical_flux"
   ],
   "note": ""
  },
  {
   "property": "C124",
   "status": "proved",
   "theorems": [
    "Verif.C124_tied",
    "Verif.C124_edit",
    "Verif.C124_two",
    "Verif.C124_fit",
    "Verif.C124_array",
    "Verif.C124_created",
    "Verif.C124_own_fit",
    "Verif.C124_refused"
   ],
   "note": ""
  },
  {
   "property": "C125",
   "status": "proved",
   "theorems": [
    "Verif.C125_value",
    "Verif.C125_own",
    "Verif.C125_earlier",
    "Verif.C125_edit_persists",
    "Verif.C125_edit_elsewhere",
    "Verif.C125_stream"
   ],
   "note": ""
  },
  {
   "property": "C126",
   "status": "proved",
   "theorems": [
    "Verif.C126_tensor",
    "Verif.C126_exact",
    "Verif.C126_grid",
    "Verif.C126_small_unit",
    "Verif.C126_large_unit",
    "Verif.C126_mann",
    "Verif.C126_scales",
    "Verif.C126_grid_case"
   ],
   "note": ""
  },
  {
   "property": "C127",
   "status": "proved",
   "theorems": [
    "Verif.C127_mean",
    "Verif.C127_covariance",
    "Verif.C127_variance",
    "Verif.C127_long",
    "Verif.C127_repeat",
    "Verif.C127_repeat_bias"
   ],
   "note": ""
  },
  {
   "property": "C128",
   "status": "proved",
   "theorems": [
    "Verif.C128_rows",
    "Verif.C128_columns",
    "Verif.C128_uncorrelated",
    "Verif.C128_wind"
   ],
   "note": ""
  },
  {
   "property": "C129",
   "status": "proved",
   "theorems": [
    "Verif.C129_splice",
    "Verif.C129_fresh",
    "Verif.C129_mixed",
    "Verif.C129_forget",
    "Verif.C129_repeat",
    "Verif.C129_law"
   ],
   "note": ""
  },
  {
   "property": "C130",
   "status": "proved",
   "theorems": [
    "Verif.C130_outcome",
    "Verif.C130_given",
    "Verif.C130_profile",
    "Verif.C130_interior",
    "Verif.C130_nonzero",
    "Verif.C130_finite"
   ],
   "note": ""
  },
  {
   "property": "C131",
   "status": "proved",
   "theorems": [
    "Verif.C131_growth",
    "Verif.C131_unbiased",
    "Verif.C131_share",
    "Verif.C131_parabola",
    "Verif.C131_data",
    "Verif.C131_case",
    "Verif.C131_negligible"
   ],
   "note": ""
  },
  {
   "property": "C132",
   "status": "proved",
   "theorems": [
    "Verif.C132_vk",
    "Verif.C132_mann",
    "Verif.C132_nn",
    "Verif.C132_variance",
    "Verif.C132_decay"
   ],
   "note": ""
  },
  {
   "property": "C133",
   "status": "proved",
   "theorems": [
    "Verif.C133_vk",
    "Verif.C133_mann",
    "Verif.C133_nn"
   ],
   "note": ""
  },
  {
   "property": "C134",
   "status": "proved",
   "theorems": [
    "Verif.C134_vk",
    "Verif.C134_mann",
    "Verif.C134_nn",
    "Verif.C134_variances",
    "Verif.C134_decay",
    "Verif.C134_isotropic",
    "Verif.C134_isotropic_point",
    "Verif.C134_similarity"
   ],
   "note": ""
  },
  {
   "property": "C135",
   "status": "proved",
   "theorems": [
    "Verif.C135_cross",
    "Verif.C135_vk",
    "Verif.C135_mann",
    "Verif.C135_nn",
    "Verif.C135_bounds",
    "Verif.C135_periodic",
    "Verif.C135_generator_matches_fitter"
   ],
   "note": ""
  },
  {
   "property": "C136",
   "status": "proved",
   "theorems": [
    "Verif.C136_energy",
    "Verif.C136_kernel",
    "Verif.C136_exact"
   ],
   "note": ""
  },
  {
   "property": "C137",
   "status": "proved",
   "theorems": [
    "Verif.C137_ww",
    "Verif.C137_lifetimes",
    "Verif.C137_exact"
   ],
   "note": ""
  },
  {
   "property": "C138",
   "status": "proved",
   "theorems": [
    "Verif.C138_block",
    "Verif.C138_returned",
    "Verif.C138_power",
    "Verif.C138_log",
    "Verif.C138_exact"
   ],
   "note": ""
  },
  {
   "property": "C139",
   "status": "proved",
   "theorems": [
    "Verif.C139_mse",
    "Verif.C139_coherence",
    "Verif.C139_regularization"
   ],
   "note": ""
  },
  {
   "property": "C140",
   "status": "proved",
   "theorems": [
    "Verif.C140_hermitian",
    "Verif.C140_mirror",
    "Verif.C140_exact"
   ],
   "note": ""
  },
  {
   "property": "C141",
   "status": "proved",
   "theorems": [
    "Verif.C141_field",
    "Verif.C141_vk",
    "Verif.C141_normalised"
   ],
   "note": ""
  },
  {
   "property": "C142",
   "status": "proved",
   "theorems": [
    "Verif.C142_images",
    "Verif.C142_fold",
    "Verif.C142_faces"
   ],
   "note": ""
  },
  {
   "property": "C143",
   "status": "proved",
   "theorems": [
    "Verif.C143_exact",
    "Verif.C143_kernel",
    "Verif.C143_lifetime",
    "Verif.C143_mann",
    "Verif.C143_field",
    "Verif.C143_mann_field"
   ],
   "note": ""
  },
  {
   "property": "C144",
   "status": "proved",
   "theorems": [
    "Verif.C144_spectra",
    "Verif.C144_lifetimes",
    "Verif.C144_exact"
   ],
   "note": ""
  },
  {
   "property": "C145",
   "status": "proved",
   "theorems": [
    "Verif.C145_generate",
    "Verif.C145_vk",
    "Verif.C145_power",
    "Verif.C145_log",
    "Verif.C145_exact"
   ],
   "note": ""
  },
  {
   "property": "C146",
   "status": "proved",
   "theorems": [
    "Verif.C146_exact",
    "Verif.C146_first_order",
    "Verif.C146_second_order",
    "Verif.C146_coherence",
    "Verif.C146_total",
    "Verif.C146_total_spectra"
   ],
   "note": ""
  },
  {
   "property": "C147",
   "status": "proved",
   "theorems": [
    "Verif.C147_exact",
    "Verif.C147_shear",
    "Verif.C147_mann"
   ],
   "note": ""
  },
  {
   "property": "C148",
   "status": "proved",
   "theorems": [
    "Verif.C148_coherence",
    "Verif.C148_exact"
   ],
   "note": ""
  },
  {
   "property": "C149",
   "status": "proved",
   "theorems": [
    "Verif.C149_field",
    "Verif.C149_constructed",
    "Verif.C149_exact_constructor",
    "Verif.C149_exact"
   ],
   "note": ""
  },
  {
   "property": "C150",
   "status": "proved",
   "theorems": [
    "Verif.C150_lipschitz",
    "Verif.C150_value",
    "Verif.C150_linspace",
    "Verif.C150_coordinates",
    "Verif.C150_added",
    "Verif.C150_outside",
    "Verif.C150_exact"
   ],
   "note": ""
  },
  {
   "property": "C151",
   "status": "proved",
   "theorems": [
    "Verif.C151_exact",
    "Verif.C151_values",
    "Verif.C151_rounded",
    "Verif.C151_part",
    "Verif.C151_generate"
   ],
   "note": ""
  },
  {
   "property": "C152",
   "status": "proved",
   "theorems": [
    "Verif.C152_network",
    "Verif.C152_lifetime",
    "Verif.C152_nonneg",
    "Verif.C152_uniform",
    "Verif.C152_wind",
    "Verif.C152_fit_lifetime",
    "Verif.C152_spectra",
    "Verif.C152_exact",
    "Verif.C152_computes",
    "Verif.C152_exact_wind"
   ],
   "note": ""
  },
  {
   "property": "C153",
   "status": "proved",
   "theorems": [
    "Verif.C153_sizes",
    "Verif.C153_exact",
    "Verif.C153_jump"
   ],
   "note": ""
  }
 ]
}