{"claims":[
{"property": "C01", "status": "proved", "theorems": ["Verif.Props.C01_fir_difference_equation", "Verif.Props.C01_fir_convolution"], "note": ""},
{"property": "C02", "status": "proved", "theorems": ["Verif.Props.C02_fir_streaming"], "note": ""},
{"property": "C03", "status": "proved", "theorems": ["Verif.Props.C03_fir_linear", "Verif.Props.C03_integer_dtype_not_linear"], "note": ""},
{"property": "C04", "status": "proved", "theorems": ["Verif.Props.C04_fir_reset_no_transient"], "note": ""},
{"property": "C05", "status": "proved", "theorems": ["Verif.Props.C05_fir_rejects_unchanged", "Verif.Props.C05_fir_mismatch_raises"], "note": ""},
{"property": "C06", "status": "proved", "theorems": ["Verif.Props.C06_fir_construction_usable", "Verif.Props.C06_fir_empty_rejected"], "note": ""},
{"property": "C07", "status": "proved", "theorems": ["Verif.Props.C07_iir_difference_equation"], "note": ""},
{"property": "C08", "status": "proved", "theorems": ["Verif.Props.C08_iir_streaming"], "note": ""},
{"property": "C09", "status": "proved", "theorems": ["Verif.Props.C09_iir_reset_steady_unity", "Verif.Props.C09_nonunity_not_steady"], "note": ""},
{"property": "C10", "status": "partial", "theorems": ["Verif.Props.C10_iir_construction_usable_partial", "Verif.Props.C10_long_state_unusable", "Verif.Props.C10_long_state_witness", "Verif.Props.C10_nonzero_a0_rejected"], "note": "False as stated: a state longer than the coefficients makes filter raise (C10_long_state_unusable, witness). Proved for states not longer than the coefficients."},
{"property": "C11", "status": "proved", "theorems": ["Verif.Props.C11_evaluate_stable", "Verif.Props.C11_design_stable", "Verif.Props.C11_design_rejects"], "note": ""},
{"property": "C12", "status": "proved", "theorems": ["Verif.Props.C12_design_gain"], "note": ""},
{"property": "C13", "status": "proved", "theorems": ["Verif.Props.C13_stable_bibo", "Verif.Props.C13_design_bibo"], "note": ""},
{"property": "C14", "status": "proved", "theorems": ["Verif.Props.C14_design_gain_symmetric", "Verif.Props.C14_design_linear_phase", "Verif.Props.C14_design_degenerate", "Verif.Props.C14_design_rejects"], "note": ""},
{"property": "C15", "status": "proved", "theorems": ["Verif.Props.C15_fir_design_best", "Verif.Props.C15_iir_design_best"], "note": ""},
{"property": "C16", "status": "proved", "theorems": ["Verif.Props.C16_rank_order_statistic", "Verif.Props.C16_rank_extremes"], "note": ""},
{"property": "C17", "status": "proved", "theorems": ["Verif.Props.C17_rank_streaming", "Verif.Props.C17_rank_state"], "note": ""},
{"property": "C18", "status": "proved", "theorems": ["Verif.Props.C18_rank_constructor", "Verif.Props.C18_rank_setter", "Verif.Props.C18_rank_never_index_error"], "note": ""},
{"property": "C19", "status": "proved", "theorems": ["Verif.Props.C19_rank_open_idempotent", "Verif.Props.C19_rank_close_idempotent"], "note": ""},
{"property": "C20", "status": "proved", "theorems": ["Verif.Props.C20_pid_streaming", "Verif.Props.C20_pid_formula", "Verif.Props.C20_pid_rejects_length"], "note": ""},
{"property": "C21", "status": "proved", "theorems": ["Verif.Props.C21_pid_integral_update", "Verif.Props.C21_pid_integral_bounded", "Verif.Props.C21_pid_history", "Verif.Props.C21_pid_limit_setter", "Verif.Props.C21_hold_is_not_clamp"], "note": ""},
{"property": "C22", "status": "proved", "theorems": ["Verif.Props.C22_goertzel_dft", "Verif.Props.C22_goertzel_phase_unit"], "note": ""},
{"property": "C23", "status": "proved", "theorems": ["Verif.Props.C23_goertzel_blocks", "Verif.Props.C23_goertzel_count"], "note": ""},
{"property": "C24", "status": "partial", "theorems": ["Verif.Props.C24_frequency_setter_does_not_retune", "Verif.Props.C24_retune_witness", "Verif.Props.C24_frequency_setter_partial"], "note": "False of the code: assigning frequency does not retune (C24_frequency_setter_does_not_retune, witness). Proved: what the assignment does change."},
{"property": "C25", "status": "proved", "theorems": ["Verif.Props.C25_exponential_phase", "Verif.Props.C25_exponential_unit"], "note": ""},
{"property": "C26", "status": "proved", "theorems": ["Verif.Props.C26_phase_bounded", "Verif.Props.C26_phase_congruent", "Verif.Props.C26_rejects_unchanged", "Verif.Props.C26_exponential_chunks"], "note": ""},
{"property": "C27", "status": "proved", "theorems": ["Verif.Props.C27_bandpass_converges", "Verif.Props.C27_bandpass_error"], "note": ""},
{"property": "C28", "status": "proved", "theorems": ["Verif.Props.C28_frequency_locks", "Verif.Props.C28_frequency_exact", "Verif.Props.C28_frequency_limit"], "note": ""},
{"property": "C29", "status": "proved", "theorems": ["Verif.Props.C29_frequency_bounded", "Verif.Props.C29_frequency_unit_bound", "Verif.Props.C29_unit_bound_fails"], "note": ""},
{"property": "C30", "status": "partial", "theorems": ["Verif.Props.C30_constructor_ignores_frequency", "Verif.Props.C30_constructor_witness", "Verif.Props.C30_starts_at_frequency_partial"], "note": "False of the code: the constructor ignores frequency (C30_constructor_ignores_frequency, witness). Proved: it holds after assigning the property frequency."},
{"property": "C31", "status": "proved", "theorems": ["Verif.Props.C31_derivative_exact", "Verif.Props.C31_derivative_supported"], "note": ""},
{"property": "C32", "status": "proved", "theorems": ["Verif.Props.C32_integral_increment", "Verif.Props.C32_integral_weights", "Verif.Props.C32_integral_running_sum", "Verif.Props.C32_integral_order_zero", "Verif.Props.C32_integral_constant", "Verif.Props.C32_integral_quadrature"], "note": ""},
{"property": "C33", "status": "proved", "theorems": ["Verif.Props.C33_length", "Verif.Props.C33_zero_rate", "Verif.Props.C33_rejects", "Verif.Props.C33_new_rejects"], "note": ""},
{"property": "C34", "status": "proved", "theorems": ["Verif.Props.C34_affine", "Verif.Props.C34_order_four", "Verif.Props.C34_constant", "Verif.Props.C34_offset"], "note": ""},
{"property": "C35", "status": "proved", "theorems": ["Verif.Props.C35_linear", "Verif.Props.C35_identity", "Verif.Props.C35_interpolates"], "note": ""},
{"property": "C36", "status": "proved", "theorems": ["Verif.Props.C36_terminates", "Verif.Props.C36_filter", "Verif.Props.C36_reachable", "Verif.Props.C36_rejects", "Verif.Props.C36_rate_rejects"], "note": ""},
{"property": "C37", "status": "proved", "theorems": ["Verif.Props.C37_bank", "Verif.Props.C37_constant", "Verif.Props.C37_history", "Verif.Props.C37_constructed", "Verif.Props.C37_program"], "note": ""},
{"property": "C38", "status": "partial", "theorems": ["Verif.Props.C38_chunks_partial", "Verif.Props.C38_consumed", "Verif.Props.C38_drops_sample", "Verif.Props.C38_violation"], "note": "False of the code: samples can be dropped at the end of a chunk (C38_drops_sample, C38_violation). Proved: chunk independence, from any state, for all chunkings in which no len*rate is rounded down (C38_chunks_partial), and exactly which samples are dropped otherwise (C38_consumed)."},
{"property": "C39", "status": "proved", "theorems": ["Verif.Props.C39_window_product", "Verif.Props.C39_window_rejects", "Verif.Props.C39_window_symmetric", "Verif.Props.C39_window_normal", "Verif.Props.C39_window_degenerate", "Verif.Props.C39_window_raw", "Verif.Props.C39_window_new_rejects"], "note": ""},
{"property": "C40", "status": "proved", "theorems": ["Verif.Props.C40_fourier_roundtrip_even", "Verif.Props.C40_fourier_roundtrip_tapered", "Verif.Props.C40_fourier_roundtrip_odd", "Verif.Props.C40_fourier_rejects"], "note": ""},
{"property": "C41", "status": "proved", "theorems": ["Verif.Props.C41_fourier_axis_even", "Verif.Props.C41_fourier_parseval", "Verif.Props.C41_fourier_axis_odd", "Verif.Props.C41_odd_axis_witness"], "note": ""},
{"property": "C42", "status": "proved", "theorems": ["Verif.Props.C42_psd_spectrogram", "Verif.Props.C42_psd_mean", "Verif.Props.C42_psd_axis_even", "Verif.Props.C42_psd_axis_odd_witness", "Verif.Props.C42_psd_scaling", "Verif.Props.C42_psd_mean_scaling"], "note": ""},
{"property": "C43", "status": "proved", "theorems": ["Verif.Props.C43_bilinear_poles", "Verif.Props.C43_bilinear_stable", "Verif.Props.C43_impulse_poles", "Verif.Props.C43_impulse_stable"], "note": ""},
{"property": "C44", "status": "proved", "theorems": ["Verif.Props.C44_dc_gain", "Verif.Props.C44_bilinear_finite", "Verif.Props.C44_zero_dc_not_finite"], "note": ""},
{"property": "C45", "status": "proved", "theorems": ["Verif.Props.C45_complex_roundtrip", "Verif.Props.C45_three_sums_to_zero", "Verif.Props.C45_three_roundtrip", "Verif.Props.C45_three_roundtrip_iff", "Verif.Props.C45_rejects"], "note": ""},
{"property": "C46", "status": "proved", "theorems": ["Verif.Props.C46_line_to_line"], "note": ""},
{"property": "C47", "status": "proved", "theorems": ["Verif.Props.C47_haar_vec", "Verif.Props.C47_haar_mat", "Verif.Props.C47_integers"], "note": ""},
{"property": "C48", "status": "proved", "theorems": ["Verif.Props.C48_orders_odd", "Verif.Props.C48_one_level", "Verif.Props.C48_reconstructs", "Verif.Props.C48_table", "Verif.Props.C48_defect"], "note": ""},
{"property": "C49", "status": "proved", "theorems": ["Verif.Props.C49_shape", "Verif.Props.C49_shape_vec", "Verif.Props.C49_count", "Verif.Props.C49_sizes", "Verif.Props.C49_sizes_vec", "Verif.Props.C49_rejects", "Verif.Props.C49_new_error", "Verif.Props.C49_new"], "note": ""},
{"property": "C50", "status": "proved", "theorems": ["Verif.Props.C50_monotone", "Verif.Props.C50_history", "Verif.Props.C50_filling", "Verif.Props.C50_separated", "Verif.Props.C50_distances", "Verif.Props.C50_rejects", "Verif.Props.C50_new"], "note": ""},
{"property": "C51", "status": "partial", "theorems": ["Verif.Props.C51_rows", "Verif.Props.C51_greedy_partial", "Verif.Props.C51_increases", "Verif.Props.C51_batches", "Verif.Props.C51_violation"], "note": "False of the code for the replacement that ends the filling phase (C51_violation). Proved: rows are observations; later replacements are greedy and optimal."},
{"property": "C52", "status": "partial", "theorems": ["Verif.Props.C52_clear_partial", "Verif.Props.C52_violation"], "note": "False of the code: clear takes the order from the dimension (C52_violation). Proved: what clear does produce."},
{"property": "C53", "status": "proved", "theorems": ["Verif.Props.C53_fit", "Verif.Props.C53_distance", "Verif.Props.C53_singular", "Verif.Props.C53_rejects", "Verif.Props.C53_fit_any"], "note": ""},
{"property": "C54", "status": "proved", "theorems": ["Verif.Props.C54_rows", "Verif.Props.C54_first", "Verif.Props.C54_rejects"], "note": ""},
{"property": "C55", "status": "proved", "theorems": ["Verif.Props.C55_permutation", "Verif.Props.C55_translation"], "note": ""},
{"property": "C56", "status": "proved", "theorems": ["Verif.Props.C56_rows", "Verif.Props.C56_fit", "Verif.Props.C56_rejects", "Verif.Props.C56_rejects_data"], "note": ""},
{"property": "C57", "status": "proved", "theorems": ["Verif.Props.C57_history", "Verif.Props.C57_once", "Verif.Props.C57_lazy", "Verif.Props.C57_lost", "Verif.Props.C57_level_order", "Verif.Props.C57_levels", "Verif.Props.C57_threshold"], "note": ""},
{"property": "C58", "status": "proved", "theorems": ["Verif.Props.C58_one_handler", "Verif.Props.C58_keeps_app", "Verif.Props.C58_level", "Verif.Props.C58_stream", "Verif.Props.C58_refused"], "note": ""},
{"property": "C59", "status": "proved", "theorems": ["Verif.Props.C59_serializable", "Verif.Props.C59_moments", "Verif.Props.C59_real_time", "Verif.Props.C59_no_deadlock"], "note": ""},
{"property": "C60", "status": "proved", "theorems": ["Verif.Props.C60_unambiguous", "Verif.Props.C60_url", "Verif.Props.C60_slashes", "Verif.Props.C60_idempotent", "Verif.Props.C60_default", "Verif.Props.C60_none"], "note": ""},
{"property": "C61", "status": "proved", "theorems": ["Verif.Props.C61_refused", "Verif.Props.C61_once", "Verif.Props.C61_balance"], "note": ""},
{"property": "C62", "status": "proved", "theorems": ["Verif.Props.C62_round", "Verif.Props.C62_injective", "Verif.Props.C62_alphabet", "Verif.Props.C62_rejects"], "note": ""},
{"property": "C63", "status": "proved", "theorems": ["Verif.Props.C63_round", "Verif.Props.C63_unpicklable", "Verif.Props.C63_detect", "Verif.Props.C63_mark"], "note": ""},
{"property": "C64", "status": "proved", "theorems": ["Verif.Props.C64_rejects", "Verif.Props.C64_code", "Verif.Props.C64_digest"], "note": ""},
{"property": "C65", "status": "proved", "theorems": ["Verif.Props.C65_fir_response", "Verif.Props.C65_iir_response", "Verif.Props.C65_response_odd", "Verif.Props.C65_response_rejects", "Verif.Props.C65_fir_eigenfunction"], "note": ""},
{"property": "C66", "status": "proved", "theorems": ["Verif.Props.C66_iir_poles", "Verif.Props.C66_fir_roots", "Verif.Props.C66_iir_multiplicity", "Verif.Props.C66_fir_multiplicity", "Verif.Props.C66_count", "Verif.Props.C66_leading_zeros"], "note": ""},
{"property": "C67", "status": "proved", "theorems": ["Verif.Props.C67_fir_delay"], "note": ""},
{"property": "C68", "status": "proved", "theorems": ["Verif.Props.C68_duplicate", "Verif.Props.C68_violation"], "note": ""},
{"property": "C69", "status": "proved", "theorems": ["Verif.Props.C69_gaussian", "Verif.Props.C69_mixture", "Verif.Props.C69_violation"], "note": ""},
{"property": "C70", "status": "proved", "theorems": ["Verif.Props.C70_live", "Verif.Props.C70_left_open"], "note": ""},
{"property": "C71", "status": "proved", "theorems": ["Verif.Props.C71_phase", "Verif.Props.C71_iir_delay", "Verif.Props.C71_null", "Verif.Props.C71_rejects", "Verif.Props.C71_fir_delay"], "note": ""},
{"property": "C72", "status": "proved", "theorems": ["Verif.Props.C72_iir_linear", "Verif.Props.C72_iir_time_invariant", "Verif.Props.C72_iir_cascade"], "note": ""},
{"property": "C73", "status": "proved", "theorems": ["Verif.Props.C73_unstable", "Verif.Props.C73_bibo_any_state", "Verif.Props.C73_forgets"], "note": ""},
{"property": "C74", "status": "proved", "theorems": ["Verif.Props.C74_iir_steady", "Verif.Props.C74_iir_dc", "Verif.Props.C74_design_dc"], "note": ""},
{"property": "C75", "status": "proved", "theorems": ["Verif.Props.C75_monotone", "Verif.Props.C75_outliers", "Verif.Props.C75_increasing_map"], "note": ""},
{"property": "C76", "status": "proved", "theorems": ["Verif.Props.C76_bandpass_stream", "Verif.Props.C76_frequency_stream", "Verif.Props.C76_real_chunk_differs"], "note": ""},
{"property": "C77", "status": "proved", "theorems": ["Verif.Props.C77_real_part", "Verif.Props.C77_real_tone", "Verif.Props.C77_bandpass_real", "Verif.Props.C77_frequency_real"], "note": ""},
{"property": "C78", "status": "proved", "theorems": ["Verif.Props.C78_fir_rounding", "Verif.Props.C78_dot_any_order"], "note": ""},
{"property": "C79", "status": "proved", "theorems": ["Verif.Props.C79_iir_rounding", "Verif.Props.C79_accumulator_drifts"], "note": ""},
{"property": "C80", "status": "proved", "theorems": ["Verif.Props.C80_fir_impulse", "Verif.Props.C80_fir_time_invariant", "Verif.Props.C80_fir_cascade", "Verif.Props.C80_fir_forgets", "Verif.Props.C80_fir_gain", "Verif.Props.C80_fir_gain_attained", "Verif.Props.C80_iir_without_recursion"], "note": ""},
{"property": "C81", "status": "proved", "theorems": ["Verif.Props.C81_goertzel_is_fourier_bin", "Verif.Props.C81_psd_is_fourier", "Verif.Props.C81_psd_energy", "Verif.Props.C81_fourier_tone", "Verif.Props.C81_fourier_linear", "Verif.Props.C81_fourier_real"], "note": ""},
{"property": "C82", "status": "proved", "theorems": ["Verif.Props.C82_equivariant", "Verif.Props.C82_translation", "Verif.Props.C82_scaling", "Verif.Props.C82_columns"], "note": ""},
{"property": "C83", "status": "proved", "theorems": ["Verif.Props.C83_linear", "Verif.Props.C83_orthogonal", "Verif.Props.C83_columns", "Verif.Props.C83_unit", "Verif.Props.C83_unit_matters"], "note": ""},
{"property": "C84", "status": "proved", "theorems": ["Verif.Props.C84_sequences", "Verif.Props.C84_balanced", "Verif.Props.C84_common", "Verif.Props.C84_energy", "Verif.Props.C84_order", "Verif.Props.C84_linear"], "note": ""},
{"property": "C85", "status": "proved", "theorems": ["Verif.Props.C85_bilinear", "Verif.Props.C85_response", "Verif.Props.C85_exact", "Verif.Props.C85_gain", "Verif.Props.C85_nyquist"], "note": ""},
{"property": "C86", "status": "proved", "theorems": ["Verif.Props.C86_impulse", "Verif.Props.C86_repeated"], "note": ""},
{"property": "C87", "status": "proved", "theorems": ["Verif.Props.C87_linear", "Verif.Props.C87_linear_vec", "Verif.Props.C87_energy_mat", "Verif.Props.C87_energy_vec", "Verif.Props.C87_levels_witness"], "note": ""},
{"property": "C88", "status": "proved", "theorems": ["Verif.Props.C88_evaluate", "Verif.Props.C88_shape", "Verif.Props.C88_monotone", "Verif.Props.C88_cutoff", "Verif.Props.C88_three_db", "Verif.Props.C88_nyquist", "Verif.Props.C88_witness", "Verif.Props.C88_cascade"], "note": ""},
{"property": "C89", "status": "proved", "theorems": ["Verif.Props.C89_evaluate", "Verif.Props.C89_shape", "Verif.Props.C89_equiripple"], "note": ""},
{"property": "C90", "status": "proved", "theorems": ["Verif.Props.C90_fir", "Verif.Props.C90_iir"], "note": ""},
{"property": "C91", "status": "partial", "theorems": ["Verif.Props.C91_gaussian_partial", "Verif.Props.C91_violation", "Verif.Props.C91_mixture_partial", "Verif.Props.C91_mixture_violation"], "note": "False of the code: determinants are ignored (C91_violation, C91_mixture_violation). Proved when the matrices of all classes have one determinant."},
{"property": "C92", "status": "proved", "theorems": ["Verif.Props.C92_linear", "Verif.Props.C92_weights", "Verif.Props.C92_polynomials", "Verif.Props.C92_bound", "Verif.Props.C92_parabola_witness"], "note": ""},
{"property": "C93", "status": "proved", "theorems": ["Verif.Props.C93_linear", "Verif.Props.C93_parabola", "Verif.Props.C93_cubic", "Verif.Props.C93_sharp"], "note": ""},
{"property": "C94", "status": "proved", "theorems": ["Verif.Props.C94_chebyshev", "Verif.Props.C94_euclidean", "Verif.Props.C94_manhattan", "Verif.Props.C94_geometric", "Verif.Props.C94_metric", "Verif.Props.C94_geometric_zero", "Verif.Props.C94_geometric_detour", "Verif.Props.C94_order"], "note": ""},
{"property": "C95", "status": "proved", "theorems": ["Verif.Props.C95_constant", "Verif.Props.C95_polynomial", "Verif.Props.C95_next", "Verif.Props.C95_misprints", "Verif.Props.C95_daubechies3"], "note": ""},
{"property": "C96", "status": "proved", "theorems": ["Verif.Props.C96_rises", "Verif.Props.C96_shape", "Verif.Props.C96_sum", "Verif.Props.C96_normal"], "note": ""},
{"property": "C97", "status": "proved", "theorems": ["Verif.Props.C97_law", "Verif.Props.C97_bounded", "Verif.Props.C97_unbounded", "Verif.Props.C97_releases", "Verif.Props.C97_stuck"], "note": ""},
{"property": "C98", "status": "proved", "theorems": ["Verif.Props.C98_exception", "Verif.Props.C98_unhandled", "Verif.Props.C98_no_file"], "note": ""},
{"property": "C99", "status": "proved", "theorems": ["Verif.Props.C99_derivative", "Verif.Props.C99_order", "Verif.Props.C99_higher_is_worse", "Verif.Props.C99_integral"], "note": ""},
{"property": "C100", "status": "proved", "theorems": ["Verif.Props.C100_coefficients", "Verif.Props.C100_delay", "Verif.Props.C100_flat", "Verif.Props.C100_range", "Verif.Props.C100_response"], "note": ""},
{"property": "C101", "status": "proved", "theorems": ["Verif.Props.C101_empty_signal", "Verif.Props.C101_reset", "Verif.Props.C101_frequency_reset", "Verif.Props.C101_complex", "Verif.Props.C101_goertzel", "Verif.Props.C101_psd", "Verif.Props.C101_fourier", "Verif.Props.C101_diversity", "Verif.Props.C101_polynomial_rate", "Verif.Props.C101_integral", "Verif.Props.C101_ztransform", "Verif.Props.C101_iir"], "note": ""},
{"property": "C102", "status": "proved", "theorems": ["Verif.Props.C102_output", "Verif.Props.C102_response", "Verif.Props.C102_magnitude", "Verif.Props.C102_selective", "Verif.Props.C102_tone", "Verif.Props.C102_robust", "Verif.Props.C102_noise"], "note": ""},
{"property": "C103", "status": "proved", "theorems": ["Verif.Props.C103_average", "Verif.Props.C103_range", "Verif.Props.C103_wraps"], "note": ""},
{"property": "C104", "status": "proved", "theorems": ["Verif.Props.C104_own", "Verif.Props.C104_bounds", "Verif.Props.C104_training", "Verif.Props.C104_near", "Verif.Props.C104_condition"], "note": ""},
{"property": "C105", "status": "proved", "theorems": ["Verif.Props.C105_monotone", "Verif.Props.C105_median"], "note": ""},
{"property": "C106", "status": "proved", "theorems": ["Verif.Props.C106_tone", "Verif.Props.C106_cascade", "Verif.Props.C106_not_cascade", "Verif.Props.C106_inverse"], "note": ""},
{"property": "C107", "status": "proved", "theorems": ["Verif.Props.C107_fourier", "Verif.Props.C107_psd", "Verif.Props.C107_window"], "note": ""},
{"property": "C108", "status": "proved", "theorems": ["Verif.Props.C108_cutoff", "Verif.Props.C108_three_db", "Verif.Props.C108_nyquist", "Verif.Props.C108_witness"], "note": ""},
{"property": "C109", "status": "proved", "theorems": ["Verif.Props.C109_resample", "Verif.Props.C109_prototype", "Verif.Props.C109_bound"], "note": ""},
{"property": "C110", "status": "proved", "theorems": ["Verif.Props.C110_too_short", "Verif.Props.C110_miss", "Verif.Props.C110_lowpass", "Verif.Props.C110_highpass"], "note": ""},
{"property": "C111", "status": "proved", "theorems": ["Verif.Props.C111_iir_rounding_growth", "Verif.Props.C111_integral_rounding", "Verif.Props.C111_pid_rounding", "Verif.Props.C111_pid_stalls"], "note": ""},
{"property": "C112", "status": "proved", "theorems": ["Verif.Props.C112_fir_nan", "Verif.Props.C112_iir_nan", "Verif.Props.C112_iir_single", "Verif.Props.C112_goertzel_nan", "Verif.Props.C112_pid_nan", "Verif.Props.C112_rank_nan"], "note": ""},
{"property": "C113", "status": "proved", "theorems": ["Verif.Props.C113_step", "Verif.Props.C113_refines", "Verif.Props.C113_start", "Verif.Props.C113_unchanged", "Verif.Props.C113_independent", "Verif.Props.C113_witness_own_state", "Verif.Props.C113_witness_setter"], "note": ""},
{"property": "C114", "status": "proved", "theorems": ["Verif.Props.C114_fir", "Verif.Props.C114_iir", "Verif.Props.C114_iir_stable", "Verif.Props.C114_integral", "Verif.Props.C114_psd", "Verif.Props.C114_bandpass", "Verif.Props.C114_goertzel"], "note": ""},
{"property": "C115", "status": "proved", "theorems": ["Verif.Props.C115_whole", "Verif.Props.C115_finishes", "Verif.Props.C115_kept"], "note": ""},
{"property": "C116", "status": "proved", "theorems": ["Verif.Props.C116_needs", "Verif.Props.C116_batch", "Verif.Props.C116_example", "Verif.Props.C116_refused"], "note": ""},
{"property": "C117", "status": "proved", "theorems": ["Verif.Props.C117_exact_polynomial", "Verif.Props.C117_exact_polyphase", "Verif.Props.C117_polynomial", "Verif.Props.C117_polyphase", "Verif.Props.C117_double_polynomial", "Verif.Props.C117_double_polyphase"], "note": ""},
{"property": "C118", "status": "proved", "theorems": ["Verif.Props.C118_fir", "Verif.Props.C118_iir", "Verif.Props.C118_fir_empty", "Verif.Props.C118_iir_empty", "Verif.Props.C118_rank", "Verif.Props.C118_pid", "Verif.Props.C118_goertzel", "Verif.Props.C118_polyphase", "Verif.Props.C118_exponential", "Verif.Props.C118_frequency", "Verif.Props.C118_bandpass", "Verif.Props.C118_no_rows", "Verif.Props.C118_no_state"], "note": ""},
{"property": "C119", "status": "proved", "theorems": ["Verif.Props.C119_rank", "Verif.Props.C119_derivative", "Verif.Props.C119_integral", "Verif.Props.C119_pid", "Verif.Props.C119_goertzel", "Verif.Props.C119_goertzel_error", "Verif.Props.C119_bandpass", "Verif.Props.C119_bandpass_calls", "Verif.Props.C119_frequency", "Verif.Props.C119_frequency_documented"], "note": ""},
{"property": "C120", "status": "proved", "theorems": ["Verif.Props.C120_exchange_fir", "Verif.Props.C120_exchange_iir", "Verif.Props.C120_length_fir", "Verif.Props.C120_empty", "Verif.Props.C120_length_iir", "Verif.Props.C120_broadcast_iir", "Verif.Props.C120_restore", "Verif.Props.C120_not_saved", "Verif.Props.C120_shared", "Verif.Props.C120_rank"], "note": ""},
{"property": "C121", "status": "proved", "theorems": ["Verif.Props.C121_up", "Verif.Props.C121_down", "Verif.Props.C121_return", "Verif.Props.C121_compose", "Verif.Props.C121_lossy"], "note": ""},
{"property": "C122", "status": "proved", "theorems": ["Verif.Props.C122_shape", "Verif.Props.C122_accepts", "Verif.Props.C122_dead", "Verif.Props.C122_twice", "Verif.Props.C122_order"], "note": ""},
{"property": "C123", "status": "proved", "theorems": ["Verif.Props.C123_fir_alone", "Verif.Props.C123_iir_alone", "Verif.Props.C123_fir_touches", "Verif.Props.C123_reset_alone", "Verif.Props.C123_reset_touches", "Verif.Props.C123_iir_touches", "Verif.Props.C123_separate", "Verif.Props.C123_fir", "Verif.Props.C123_locked_run", "Verif.Props.C123_locked", "Verif.Props.C123_shared"], "note": ""},
{"property": "C124", "status": "proved", "theorems": ["Verif.Props.C124_keeps", "Verif.Props.C124_restarts", "Verif.Props.C124_drift", "Verif.Props.C124_asymmetric"], "note": ""},
{"property": "C125", "status": "proved", "theorems": ["Verif.Props.C125_distance_numbers", "Verif.Props.C125_distance_nan", "Verif.Props.C125_distance_chebyshev", "Verif.Props.C125_numbers", "Verif.Props.C125_passed_over", "Verif.Props.C125_kept", "Verif.Props.C125_observation", "Verif.Props.C125_two", "Verif.Props.C125_stuck", "Verif.Props.C125_poisoned"], "note": ""},
{"property": "C126", "status": "proved", "theorems": ["Verif.Props.C126_parameters", "Verif.Props.C126_exponential_numbers", "Verif.Props.C126_exponential", "Verif.Props.C126_exponential_after", "Verif.Props.C126_bandpass_numbers", "Verif.Props.C126_bandpass", "Verif.Props.C126_bandpass_after", "Verif.Props.C126_bandpass_frequency", "Verif.Props.C126_frequency_numbers", "Verif.Props.C126_frequency", "Verif.Props.C126_frequency_after", "Verif.Props.C126_frequency_heals", "Verif.Props.C126_real", "Verif.Props.C126_parameters_numbers", "Verif.Props.C126_parameters_stored"], "note": ""},
{"property": "C127", "status": "proved", "theorems": ["Verif.Props.C127_decode", "Verif.Props.C127_dangling", "Verif.Props.C127_serial"], "note": ""},
{"property": "C128", "status": "proved", "theorems": ["Verif.Props.C128_conversion", "Verif.Props.C128_fir_integers", "Verif.Props.C128_fir_loss", "Verif.Props.C128_iir_integers", "Verif.Props.C128_iir_small", "Verif.Props.C128_iir_impulse", "Verif.Props.C128_padded", "Verif.Props.C128_pid_small", "Verif.Props.C128_pid_integers", "Verif.Props.C128_fir_complex", "Verif.Props.C128_iir_complex", "Verif.Props.C128_rank", "Verif.Props.C128_rank_integers", "Verif.Props.C128_rank_truncated"], "note": ""},
{"property": "C129", "status": "proved", "theorems": ["Verif.Props.C129_polyphase_numbers", "Verif.Props.C129_polyphase_new", "Verif.Props.C129_polyphase_nan", "Verif.Props.C129_polyphase_rejected", "Verif.Props.C129_polynomial", "Verif.Props.C129_polynomial_numbers", "Verif.Props.C129_pid", "Verif.Props.C129_search", "Verif.Props.C129_fir", "Verif.Props.C129_iir", "Verif.Props.C129_iir_none", "Verif.Props.C129_iir_refused", "Verif.Props.C129_goertzel"], "note": ""},
{"property": "C130", "status": "proved", "theorems": ["Verif.Props.C130_shape", "Verif.Props.C130_bound", "Verif.Props.C130_nyquist", "Verif.Props.C130_first_order", "Verif.Props.C130_half", "Verif.Props.C130_three_db"], "note": ""},
{"property": "C131", "status": "proved", "theorems": ["Verif.Props.C131_factor", "Verif.Props.C131_analysis_mat", "Verif.Props.C131_synthesis_mat", "Verif.Props.C131_analysis_vec", "Verif.Props.C131_synthesis_vec", "Verif.Props.C131_kept", "Verif.Props.C131_lost"], "note": ""},
{"property": "C132", "status": "proved", "theorems": ["Verif.Props.C132_unbounded", "Verif.Props.C132_line", "Verif.Props.C132_triangle", "Verif.Props.C132_growth"], "note": ""},
{"property": "C133", "status": "proved", "theorems": ["Verif.Props.C133_recursion", "Verif.Props.C133_dropped", "Verif.Props.C133_real", "Verif.Props.C133_fir_response", "Verif.Props.C133_iir_response", "Verif.Props.C133_response_rejects", "Verif.Props.C133_fir_tone", "Verif.Props.C133_iir_roots", "Verif.Props.C133_stable_roots", "Verif.Props.C133_fir_roots", "Verif.Props.C133_fir_delay", "Verif.Props.C133_bibo", "Verif.Props.C133_forgets", "Verif.Props.C133_steady", "Verif.Props.C133_mode", "Verif.Props.C133_unstable"], "note": ""},
{"property": "C134", "status": "proved", "theorems": ["Verif.Props.C134_tone", "Verif.Props.C134_images", "Verif.Props.C134_alias"], "note": ""},
{"property": "C135", "status": "proved", "theorems": ["Verif.Props.C135_noise", "Verif.Props.C135_settles", "Verif.Props.C135_sharp"], "note": ""},
{"property": "C136", "status": "proved", "theorems": ["Verif.Props.C136_same", "Verif.Props.C136_refused", "Verif.Props.C136_exponential", "Verif.Props.C136_zero", "Verif.Props.C136_cut"], "note": ""},
{"property": "C137", "status": "proved", "theorems": ["Verif.Props.C137_fir", "Verif.Props.C137_iir", "Verif.Props.C137_exact", "Verif.Props.C137_comb"], "note": ""},
{"property": "C138", "status": "proved", "theorems": ["Verif.Props.C138_band", "Verif.Props.C138_band_sweep", "Verif.Props.C138_track", "Verif.Props.C138_linear", "Verif.Props.C138_lag", "Verif.Props.C138_lag_bound"], "note": ""},
{"property": "C139", "status": "proved", "theorems": ["Verif.Props.C139_fir", "Verif.Props.C139_iir", "Verif.Props.C139_goertzel", "Verif.Props.C139_goertzel_inner"], "note": ""},
{"property": "C140", "status": "proved", "theorems": ["Verif.Props.C140_exponential", "Verif.Props.C140_exponential_calls", "Verif.Props.C140_stall", "Verif.Props.C140_bandpass", "Verif.Props.C140_frequency"], "note": ""},
{"property": "C141", "status": "proved", "theorems": ["Verif.Props.C141_mean", "Verif.Props.C141_no_offset", "Verif.Props.C141_settles", "Verif.Props.C141_first_order", "Verif.Props.C141_limit", "Verif.Props.C141_proportional", "Verif.Props.C141_stuck"], "note": ""},
{"property": "C142", "status": "proved", "theorems": ["Verif.Props.C142_refused", "Verif.Props.C142_index", "Verif.Props.C142_unseen", "Verif.Props.C142_power", "Verif.Props.C142_negative"], "note": ""},
{"property": "C143", "status": "proved", "theorems": ["Verif.Props.C143_fir", "Verif.Props.C143_fir_infinite", "Verif.Props.C143_iir", "Verif.Props.C143_pid", "Verif.Props.C143_rank"], "note": ""},
{"property": "C144", "status": "proved", "theorems": ["Verif.Props.C144_hann", "Verif.Props.C144_hamming", "Verif.Props.C144_blackman", "Verif.Props.C144_zeros", "Verif.Props.C144_bound", "Verif.Props.C144_psd", "Verif.Props.C144_limit", "Verif.Props.C144_compare"], "note": ""},
{"property": "C145", "status": "proved", "theorems": ["Verif.Props.C145_iir", "Verif.Props.C145_remembered", "Verif.Props.C145_fir", "Verif.Props.C145_bounded", "Verif.Props.C145_each_stable", "Verif.Props.C145_unstable"], "note": ""},
{"property": "C146", "status": "proved", "theorems": ["Verif.Props.C146_overlap_add", "Verif.Props.C146_energy"], "note": ""},
{"property": "C147", "status": "proved", "theorems": ["Verif.Props.C147_pid_iir", "Verif.Props.C147_pid_parts", "Verif.Props.C147_iir_fir", "Verif.Props.C147_iir_fir_new", "Verif.Props.C147_rank_zero"], "note": ""},
{"property": "C148", "status": "proved", "theorems": ["Verif.Props.C148_unbounded", "Verif.Props.C148_iff", "Verif.Props.C148_cancelled"], "note": ""},
{"property": "C149", "status": "proved", "theorems": ["Verif.Props.C149_apart", "Verif.Props.C149_repeated", "Verif.Props.C149_again", "Verif.Props.C149_same", "Verif.Props.C149_overlap"], "note": ""},
{"property": "C150", "status": "proved", "theorems": ["Verif.Props.C150_power", "Verif.Props.C150_reactive", "Verif.Props.C150_parts", "Verif.Props.C150_analytic", "Verif.Props.C150_lost"], "note": ""},
{"property": "C151", "status": "proved", "theorems": ["Verif.Props.C151_fir", "Verif.Props.C151_iir", "Verif.Props.C151_pid", "Verif.Props.C151_pid_limit", "Verif.Props.C151_rank", "Verif.Props.C151_window", "Verif.Props.C151_rate_linear", "Verif.Props.C151_rate_order", "Verif.Props.C151_polyphase", "Verif.Props.C151_wavelet", "Verif.Props.C151_wavelet_one", "Verif.Props.C151_wavelet_refused"], "note": ""},
{"property": "C152", "status": "proved", "theorems": ["Verif.Props.C152_array", "Verif.Props.C152_two_levels", "Verif.Props.C152_no_delay"], "note": ""},
{"property": "C153", "status": "proved", "theorems": ["Verif.Props.C153_fir", "Verif.Props.C153_iir"], "note": ""},
{"property": "C154", "status": "proved", "theorems": ["Verif.Props.C154_linear", "Verif.Props.C154_real_even", "Verif.Props.C154_real_odd", "Verif.Props.C154_convolve", "Verif.Props.C154_fast", "Verif.Props.C154_shift", "Verif.Props.C154_modulate"], "note": ""},
{"property": "C155", "status": "proved", "theorems": ["Verif.Props.C155_undo", "Verif.Props.C155_undo_first", "Verif.Props.C155_lost", "Verif.Props.C155_robust", "Verif.Props.C155_fragile"], "note": ""},
{"property": "C156", "status": "proved", "theorems": ["Verif.Props.C156_between", "Verif.Props.C156_variation", "Verif.Props.C156_reset", "Verif.Props.C156_nonexpansive", "Verif.Props.C156_steps"], "note": ""},
{"property": "C157", "status": "proved", "theorems": ["Verif.Props.C157_gain", "Verif.Props.C157_gain_haar", "Verif.Props.C157_stored_mat", "Verif.Props.C157_stored_vec", "Verif.Props.C157_integers_vec", "Verif.Props.C157_integers_mat", "Verif.Props.C157_exact_vec", "Verif.Props.C157_exact_mat", "Verif.Props.C157_inverse_vec", "Verif.Props.C157_inverse_mat", "Verif.Props.C157_roundtrip", "Verif.Props.C157_reconstructed", "Verif.Props.C157_lost"], "note": ""},
{"property": "C158", "status": "proved", "theorems": ["Verif.Props.C158_exact", "Verif.Props.C158_near", "Verif.Props.C158_far", "Verif.Props.C158_wrong"], "note": ""},
{"property": "C159", "status": "proved", "theorems": ["Verif.Props.C159_nearest", "Verif.Props.C159_error", "Verif.Props.C159_rounded", "Verif.Props.C159_fir_double", "Verif.Props.C159_iir_limit", "Verif.Props.C159_fir_exact", "Verif.Props.C159_fir_monotone", "Verif.Props.C159_iir_exact"], "note": ""},
{"property": "C160", "status": "proved", "theorems": ["Verif.Props.C160_fade", "Verif.Props.C160_float_fade", "Verif.Props.C160_stuck", "Verif.Props.C160_dies"], "note": ""},
{"property": "C161", "status": "proved", "theorems": ["Verif.Props.C161_map", "Verif.Props.C161_threshold", "Verif.Props.C161_rounded", "Verif.Props.C161_exact", "Verif.Props.C161_integers", "Verif.Props.C161_not_a_sample"], "note": ""},
{"property": "C162", "status": "proved", "theorems": ["Verif.Props.C162_stable", "Verif.Props.C162_outputs", "Verif.Props.C162_fir", "Verif.Props.C162_rounded", "Verif.Props.C162_accumulator"], "note": ""},
{"property": "C163", "status": "proved", "theorems": ["Verif.Props.C163_adjoint", "Verif.Props.C163_kernel", "Verif.Props.C163_reversal", "Verif.Props.C163_tone", "Verif.Props.C163_needs_zeros"], "note": ""},
{"property": "C164", "status": "proved", "theorems": ["Verif.Props.C164_cascade", "Verif.Props.C164_repeat", "Verif.Props.C164_sieve", "Verif.Props.C164_median"], "note": ""},
{"property": "C165", "status": "proved", "theorems": ["Verif.Props.C165_monotone", "Verif.Props.C165_order", "Verif.Props.C165_limit", "Verif.Props.C165_small"], "note": ""},
{"property": "C166", "status": "proved", "theorems": ["Verif.Props.C166_heap", "Verif.Props.C166_own", "Verif.Props.C166_reference", "Verif.Props.C166_list", "Verif.Props.C166_restart", "Verif.Props.C166_measure", "Verif.Props.C166_restored", "Verif.Props.C166_stale", "Verif.Props.C166_stale_witness", "Verif.Props.C166_shared"], "note": ""},
{"property": "C167", "status": "proved", "theorems": ["Verif.Props.C167_root", "Verif.Props.C167_after", "Verif.Props.C167_alternating"], "note": ""},
{"property": "C168", "status": "proved", "theorems": ["Verif.Props.C168_repeat", "Verif.Props.C168_distance", "Verif.Props.C168_scaled", "Verif.Props.C168_nearer", "Verif.Props.C168_attract", "Verif.Props.C168_majority"], "note": ""},
{"property": "C169", "status": "proved", "theorems": ["Verif.Props.C169_step", "Verif.Props.C169_tables", "Verif.Props.C169_new", "Verif.Props.C169_last", "Verif.Props.C169_assign", "Verif.Props.C169_view", "Verif.Props.C169_exists"], "note": ""},
{"property": "C170", "status": "proved", "theorems": ["Verif.Props.C170_iir", "Verif.Props.C170_iir_complex", "Verif.Props.C170_fir", "Verif.Props.C170_fir_complex", "Verif.Props.C170_iir_sharp", "Verif.Props.C170_fir_sharp", "Verif.Props.C170_iir_complex_sharp", "Verif.Props.C170_fir_complex_sharp", "Verif.Props.C170_butterworth", "Verif.Props.C170_chebyshev"], "note": ""},
{"property": "C171", "status": "proved", "theorems": ["Verif.Props.C171_iir_complex", "Verif.Props.C171_iir", "Verif.Props.C171_ramp", "Verif.Props.C171_step", "Verif.Props.C171_fir", "Verif.Props.C171_fir_ramp", "Verif.Props.C171_fir_reported"], "note": ""},
{"property": "C172", "status": "proved", "theorems": ["Verif.Props.C172_delay", "Verif.Props.C172_reported", "Verif.Props.C172_ramp", "Verif.Props.C172_mean"], "note": ""},
{"property": "C173", "status": "proved", "theorems": ["Verif.Props.C173_iir", "Verif.Props.C173_power", "Verif.Props.C173_energy", "Verif.Props.C173_half", "Verif.Props.C173_noise"], "note": ""},
{"property": "C174", "status": "proved", "theorems": ["Verif.Props.C174_fir", "Verif.Props.C174_fir_alias", "Verif.Props.C174_iir", "Verif.Props.C174_iir_converse", "Verif.Props.C174_fir_complex", "Verif.Props.C174_iir_complex", "Verif.Props.C174_iir_complex_converse"], "note": ""},
{"property": "C175", "status": "proved", "theorems": ["Verif.Props.C175_fir", "Verif.Props.C175_iir", "Verif.Props.C175_fir_noise", "Verif.Props.C175_fir_complex", "Verif.Props.C175_iir_complex"], "note": ""},
{"property": "C176", "status": "proved", "theorems": ["Verif.Props.C176_bank", "Verif.Props.C176_power", "Verif.Props.C176_real"], "note": ""},
{"property": "C177", "status": "proved", "theorems": ["Verif.Props.C177_period", "Verif.Props.C177_fir", "Verif.Props.C177_iir"], "note": ""},
{"property": "C178", "status": "proved", "theorems": ["Verif.Props.C178_iir", "Verif.Props.C178_butterworth", "Verif.Props.C178_chebyshev", "Verif.Props.C178_iir_complex", "Verif.Props.C178_fir", "Verif.Props.C178_fir_sign"], "note": ""}
]}
