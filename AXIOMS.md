# Axioms of the theorems of MANIFEST.json

Written by `tools/axioms.py` from `#print axioms`.

* propext, Classical.choice, Quot.sound: 1011 theorems
* propext, Quot.sound: 96 theorems
* propext: 16 theorems
* none: 11 theorems

## propext, Classical.choice, Quot.sound

* C01: `C01_undelayed_producer_first`, `C01_positive_delay_counterexample`
* C02: `C02_delayed_consumer_first`
* C03: `C03_order_iff_schedulable`, `C03_error_iff`, `C03_complete`, `C03_left_out_reason`
* C04: `C04_cycle_never_runs`, `C04_self_delayed_never_runs`
* C05: `C05_loop_is_synchronous_dataflow`, `C05_post_trigger_counterexample`
* C06: `C06_success_order_independent`, `C06_results_order_independent`
* C07: `C07_build_order`, `C07_circular_rejected`, `C07_build_order_exists`
* C08: `C08_remove`
* C09: `C09_combine`, `C09_override_unknown_raises`, `C09_redefine_raises`, `C09_remove_unknown_raises`, `C09_others_unchanged`
* C10: `C10_override`, `C10_wrong_dots_raise`, `C10_accepted_iff`, `C10_overrides`
* C100: `C100_butterworth`, `C100_cutoff`, `C100_first`, `C100_amplification`, `C100_agreement`, `C100_rejections`, `C100_negative`, `HasResponse.unique`
* C101: `C101_square`, `C101_circular`, `C101_ring_gap`, `C101_alpao`, `C101_influence`, `C101_coupling`, `C101_masters`, `C101_surface`, `C101_standard`, `C101_near`, `C101_virtual`, `C101_plane_fit`, `C101_not_collinear`, `C101_planes`
* C102: `C102_frequency`, `C102_waves`, `C102_columns`, `C102_rows`, `C102_covariance`, `C102_homogeneous`, `C102_spectrum`, `C102_kolmogorov`, `C102_dimension`, `C102_draws`
* C103: `C103_disjoint`, `C103_schedule`, `C103_held`, `C103_every`, `C103_not_held`, `C103_scale`, `C103_variance`, `C103_store`, `C103_exact`, `C103_kept`, `C103_list`, `C103_confused`, `C103_lag`, `C103_wrap`
* C104: `C104_valid`, `C104_same`, `C104_sizes`, `C104_fill`, `C104_range`, `C104_once`, `C104_columns`, `C104_dark`
* C105: `C105_elongation`, `C105_zenith`, `C105_farther`, `C105_corner`, `C105_truncated`, `C105_blocks`, `C105_inverse`, `C105_across`, `C105_positive`, `C105_diagonal`
* C106: `C106_grid`, `C106_spectrum`, `C106_projected`, `C106_covmat`, `C106_filtered`, `C106_filtered_last`, `C106_filtered_witness`, `C106_filt_unused`, `C106_modes`, `C106_zero_mean`, `C106_condition`, `C106_kept`, `C106_zern_commands`, `C106_kl_commands`, `C106_plain_commands`, `C106_commands_witness`
* C107: `C107_paa`, `C107_layer_speed`, `C107_layer_speed_linear`, `C107_wind_speed`, `C107_wind_bounds`, `C107_wind_same`, `C107_direction`, `C107_direction_witness`, `C107_delays`, `C107_delays_zenith`, `C107_power_accepts`, `C107_power_flux`, `C107_power_scaling`, `C107_reflection`
* C108: `C108_scale`, `C108_best_fit`, `C108_pupil`, `C108_skipped`, `C108_first`, `C108_start_one`, `C108_odd`, `C108_rows`, `C108_neutral_on_axis`
* C109: `C109_history`, `C109_drift`, `C109_after_error`, `C109_blank`, `C109_indices`, `C109_indices_kept`, `C109_vector`
* C11: `C11_accepts_iff`, `C11_roundtrip`, `C11_repeated_rejected`
* C110: `C110_data_malformed`, `C110_speed`, `C110_restore_fails`, `C110_conserved`, `C110_all`
* C111: `C111_sum`, `C111_flux`, `C111_sum_raises`, `C111_border`, `C111_sky`, `C111_amp`, `C111_fwhm`, `C111_peak`, `C111_fit`, `C111_raised`, `C111_converged_ignored`, `C111_zero_alpha`
* C112: `C112_null`, `C112_null_static`, `C112_null_empty`, `C112_print`, `C112_print_gap`
* C113: `C113_mean`, `C113_rms`, `C113_span`, `C113_product`, `C113_orthogonal_iff`, `C113_orthogonal`, `C113_not_orthogonal`, `C113_repaired`
* C114: `C114_update`, `C114_between`, `pupDynRun_window`, `C114_measure`, `C114_after_failure`, `C114_status_lost`, `C114_invalid`, `C114_no_dt`, `C114_zero_dt`
* C115: `C115_resample_defined`, `C115_resample_near`, `C115_decimate`, `C115_not_centred`, `C115_piston`, `C115_slope`, `C115_undefined`, `C115_usable`, `C115_lost_segment`, `C115_tip_tilt`, `C115_not_orthogonal`, `C115_rigid`, `C115_rows`, `C115_normalised`, `C115_orthogonal_segments`
* C116: `C116_same_path`, `C116_extension`, `C116_rec`, `C116_sn`, `C116_sn_checked`, `C116_empty_dir`, `C116_subdirectory`, `C116_multirec`, `C116_multirec_no_dir`, `C116_multirec_collision`, `C116_names`
* C117: `C117_values`, `C117_schedule`, `C117_terminal`, `C117_no_blank`
* C118: `C118_measured`, `C118_no_memory`, `C118_brightness`, `C118_linear_part`, `C118_sign_ignored`, `C118_start_ignored`, `C118_threshold_ignored`
* C119: `C119_default`, `C119_shared`, `C119_values`, `C119_value_is_copy`, `C119_history_shared`
* C12: `C12_replay`, `C12_replay_closed`, `C12_list_reference_dangles`, `C12_delayed_reference_dangles`
* C120: `C120_follows`, `C120_arrays_current`, `C120_numbers_frozen`, `C120_new_array_raises`
* C121: `C121_intmat`, `C121_recmat`, `C121_no_memory`, `C121_works_iff`
* C122: `C122_crop_slice`, `C122_log`, `C122_log_deep`, `C122_psf`, `C122_linear`, `C122_linear_pixels`, `C122_quadrants`, `C122_quadrants_odd`
* C123: `C123_responses`, `C123_rtf_ntf`, `C123_pole`, `C123_infinite`, `C123_loop`
* C124: `C124_get_poles`, `C124_inside_out`, `C124_set_poles`, `C124_pole_zero`, `C124_resonance`, `C124_analysis`, `C124_pole_zero_one`
* C125: `C125_from`, `C125_from_exact`, `C125_from_wrong`, `C125_to`, `C125_roundtrip`
* C126: `C126_optimal`, `C126_noise_raises`, `C126_vector`, `C126_few_modes`, `C126_calibrator`
* C127: `C127_shown`, `C127_set`, `C127_auto`, `C127_empty`
* C13: `C13_targeted_replay`, `C13_targeted_replay_exists`, `C13_list_input_truncated`, `C13_two_stores_dangle`
* C14: `C14_placement`, `C14_connections`, `C14_paired`, `C14_single_process`
* C15: `C15_no_deadlock`, `C15_completes`, `C15_delivered`, `C15_all_received`
* C17: `C17_text_injective`, `C17_tags_differ`, `C17_collision`
* C18: `C18_iteration_times`, `C18_niters_correct`
* C19: `C19_iteration`, `C19_run`, `C19_loop_calls`
* C20: `C20_follows_producer`, `C20_chain_rate`, `C20_delayed_only_never_triggers`
* C22: `C22_frames`, `C22_tiling`, `C22_conserved`, `C22_unaligned_never_fires`, `C22_stale_input_merges_windows`
* C23: `C23_window_means`, `C23_refresh`
* C24: `C24_blocks`
* C25: `C25_no_split`, `C25_history`, `C25_increasing`, `C25_finalize_sample`, `C25_split`, `C25_split_complete`, `C25_split_short`
* C26: `C26_replay`, `C26_refresh`
* C27: `C27_within_one_tick`, `C27_exact_from_above`, `C27_exact_binary`, `C27_round_trip`, `C27_65us`, `C27_130us`, `C27_multiple_rejected`
* C28: `C28_integer_delay`, `C28_fractional_delay`, `C28_memory`, `C28_early_view`
* C29: `C29_difference_equation`, `C29_fir`, `C29_linear`, `C29_integrator`
* C30: `C30_same_integrator`, `C30_independent`, `C30_vector`, `C30_old_state_late`
* C31: `C31_set_gain`, `C31_gain_is_coefficient`, `C31_zero_gain_lost`, `C31_zero_gain_mismatch`
* C32: `C32_delay_tf`
* C33: `C33_implicit`, `C33_explicit`, `C33_agree`, `C33_runs_agree`, `C33_perfect`, `C33_residual`, `C33_stale_slopes_differ`
* C34: `C34_calibration`, `C34_recovers`, `C34_zero_sum_not_enough`, `C34_wrong_first_mode_wraps`
* C35: `C35_optimum`, `C35_increment`, `C35_positive`, `C35_settles`, `C35_pseudo_open_loop`, `C35_first_iteration_sets_one`
* C36: `C36_update`, `C36_direction`, `C36_converges`
* C37: `C37_step_up`, `C37_step_near`, `C37_rebin_accepts`, `C37_rebin_rejects_wide`, `C37_rebin_mean`, `C37_toccd`, `C37_toccd_same_shape`, `C37_toccd_49_fails`
* C38: `C38_slopes`, `C38_brightness`, `C38_balanced`, `C38_bound`, `C38_rotation`, `C38_intensities`, `C38_dark_not_finite`, `C38_negative_norm`
* C39: `C39_centroid`, `C39_bound`, `C39_brightness`, `C39_symmetric`, `C39_shift`, `C39_dark_not_finite`
* C40: `C40_slice_up`, `C40_slice_down`, `C40_select`, `C40_round_trip`, `C40_no_memory`
* C41: `C41_last_command`, `C41_linear`, `C41_constant_length`, `C41_shorter_keeps_old`, `C41_m2c`, `C41_m2c_long_raises`, `C41_modes`
* C42: `C42_complex`, `C42_split_raises`
* C43: `C43_inside`, `C43_value`, `C43_advance`, `C43_cycle`, `C43_negative_raises`, `C43_strips`, `C43_field_of_view`, `C43_pupil_position_too_small`
* C44: `C44_radial_order`, `C44_total`, `C44_injective`, `C44_surjective`, `C44_ordered`, `C44_last_of_degree`, `C44_bound_needed`
* C45: `C45_flux`, `C45_pixels`, `C45_distances_increase`, `C45_energy_within`, `C45_distribution`, `C45_image`, `C45_uniform_area`, `C45_interpolated`, `C45_outside`, `C45_at_distance_monotone`, `C45_query`, `C45_query_image`, `C45_pixel`, `C45_default_centre`, `C45_fwhm`, `C45_fwhm_ring`, `C45_odd_centre`
* C46: `C46_long_exposure`, `C46_unit_flux`, `C46_strehl`, `C46_piston`, `C46_whole_waves`, `C46_tilt`, `C46_strehl_above_one`
* C47: `C47_mean`, `C47_request_during_acquisition`, `C47_new_nframes_during_acquisition`
* C48: `C48_electric_field`, `C48_layer`, `C48_pupilstop`, `C48_intensity`, `C48_pixels`, `C48_slopes`, `C48_source`, `C48_llt`, `C48_recmat`, `C48_intmat`, `C48_intmat_normalisation_lost`, `C48_ifunc`, `C48_m2c`, `C48_subapdata`, `C48_pupdata`, `C48_iir_shifts`, `C48_spatio_temporal`
* C49: `C49_path`, `C49_distinct`, `C49_extension_optional`, `C49_absolute`, `C49_shared_directories`
* C50: `C50_lowercase`, `C50_only_case`, `C50_words`, `C50_distinct`, `C50_collisions`
* C51: `C51_set_get`, `C51_complete`, `C51_odd_lost`, `C51_reference`, `C51_filter`, `C51_filter_projects`, `C51_filter_documented_axes`, `C51_post_reference`
* C52: `C52_rotate`, `C52_compose`, `C52_norm`, `C52_quarter`, `C52_flip_not_additive`
* C53: `C53_bounds`, `C53_local`, `C53_linear`, `C53_plane`, `C53_grid`, `C53_accepted_sees_inside`, `C53_refused`, `C53_cut_same_parity`, `C53_cut_half_pixel`, `C53_shift_not_checked`
* C54: `C54_nearest`, `C54_too_large`, `C54_reported`, `C54_odd_size`, `C54_odd_pupil_raises`
* C55: `C55_loop_equation`, `C55_settles`, `C55_bounded`, `C55_rejects_constant`, `C55_unstable`, `C55_max_gain`, `C55_max_gain_settles`, `C55_integrator_one_frame`, `C55_length_mismatch`
* C56: `multirate_ready`, `C56_outputs`, `C56_sum`, `C56_idle`, `C56_unknown_raises`
* C57: `C57_mixed`, `C57_sum`, `C57_barycentre`, `C57_weights_normalised`, `C57_integrator`, `C57_sync`
* C58: `C58_filler`, `C58_remap`, `C58_stale`
* C59: `C59_mirrors`, `C59_inputs`, `C59_linear`
* C60: `C60_schedule`, `C60_schedule_checked`, `C60_groups`, `C60_wave`, `C60_shapes`, `C60_order`, `C60_amplitudes`
* C61: `C61_seminorm`, `C61_trend`, `C61_simple_keeps_ramp`, `C61_simple_ramp_amplitude`, `C61_sine`, `C61_phase`, `C61_sine_exact`, `C61_blocks`
* C62: `C62_update`, `C62_converges`
* C63: `C63_frozen_flow`, `C63_no_drift`, `C63_seeing`, `C63_oblique_extrapolates`, `C63_up_layer_wrong`, `C63_double_speed`
* C64: `C64_two_sides`, `C64_neighbour`, `C64_smallest`
* C65: `C65_rhs`, `C65_unwrap`, `C65_poisson`, `C65_mean`, `C65_turns`, `C65_columns`
* C66: `C66_zero_mean`, `C66_idempotent`, `C66_piston`
* C67: `C67_mirror`, `C67_mirror_m2c`, `C67_ifunc`, `C67_linear`, `C67_list`, `C67_sizes`, `C67_both`, `C67_pixels`
* C68: `C68_optimal`, `C68_unique`, `C68_inverse`, `C68_variance`, `C68_uneven`, `C68_no_noise`, `C68_unit_noise`, `C68_small_units`, `C68_inverse_variance`
* C69: `C69_multi`, `C69_end_to_end`, `C69_build`, `C69_mixed_pokes`, `C69_stale_slopes`, `C69_several_pokes`, `C69_empty`, `C69_absolute_dir`, `C69_relative_dir`, `C69_none_tag`
* C70: `C70_set_nmodes`, `C70_round_trip`, `C70_reduce`
* C71: `C71_defined`, `C71_constant`, `C71_plane`, `C71_local`, `C71_linear`, `C71_inside`, `C71_piston`, `C71_tilt`, `C71_outside`, `C71_amplitude`, `C71_lit`, `C71_run`, `C71_forced`, `C71_short`, `C71_stale`, `C71_transpose`, `C71_single_precision`
* C72: `C72_position`, `C72_tilt_change`
* C73: `C73_noiseless`, `C73_binning`, `C73_binning_other`, `C73_adu`, `C73_grid`, `C73_levels`, `C73_emccd`, `C73_unbiased`
* C74: `C74_blocks`, `C74_lenslets`, `C74_map`, `C74_partition`, `C74_disjoint`, `C74_succeeds`, `C74_brightness`, `C74_slopes`, `C74_not_multiple`
* C75: `C75_mask`, `C75_mask_brightest`, `C75_centre_moves`, `C75_disc`, `C75_geometric`, `C75_lost_pixels`, `C75_lost_misaligned`, `C75_intensity`, `C75_restores`, `C75_image`, `C75_display_map`
* C76: `C76_resolution`, `C76_resolution_found`, `C76_choice`, `C76_geometry`, `C76_size_exact`, `C76_size_near`, `C76_size_short`, `C76_short_geometry`, `C76_spots`, `C76_no_crosstalk`, `C76_flux`, `C76_dark`, `C76_distributed`, `C76_distributed_same`
* C77: `C77_fft`, `C77_pupils`, `C77_scale`, `C77_scale_shrinks`, `C77_smaller_pupils`, `C77_sides`, `C77_odd_pupil`, `C77_steps_circular`, `C77_steps_small`, `C77_one_step`, `C77_steps_too_few`, `C77_steps_linear`, `C77_linear_small`, `C77_circle_radius`, `C77_circle_centred`, `C77_circle_quarter`, `C77_circle_dense`, `C77_line`, `C77_line_centre`, `C77_line_axis`, `C77_weights`, `C77_accumulate_same`, `C77_accumulate_bounds`, `C77_transmission`, `C77_flux`, `C77_flux_crop`
* C78: `C78_columns`, `C78_two_rows`, `C78_psf_names`, `C78_cube_names`, `C78_modal_names`, `C78_tenths`, `C78_grid`, `C78_modal_stale`, `C78_history`, `C78_forced`, `C78_stale`, `C78_minus`, `C78_collision`, `C78_psf`, `C78_cube`, `C78_modal`, `C78_negative_angle`
* C79: `C79_round`, `C79_square`, `C79_symmetric`, `C79_moved`, `C79_hole`, `C79_nested`, `C79_default`, `C79_on_pixel`, `C79_circular`, `C79_annular`, `C79_where`, `C79_spider_blocks`, `C79_spider_only`, `C79_inverse`, `C79_area`, `C79_ring_area`
* C80: `C80_partition`, `C80_pistons`, `C80_special`, `C80_sector`, `C80_spider_inside`, `C80_rotation`, `C80_half_pixel`, `C80_tilts`, `C80_layout`
* C81: `C81_curvature`, `C81_curvature_bound`, `C81_curvature_exchange`, `C81_curvature_brightness`, `C81_curvature_dark`, `C81_curvature_negative`, `C81_pixels`, `C81_pixels_wide`, `C81_zernike`, `C81_zernike_brightness`, `C81_zernike_dark`, `C81_roof`, `C81_map`, `C81_map_one`, `C81_map_pixels_raises`
* C82: `C82_layout`, `C82_set`, `C82_time`, `C82_samples`, `C82_range`, `C82_late`, `C82_early`, `C82_single`, `C82_same_grid`, `C82_not_square`, `C82_scale`, `replace_iff`, `C82_names`
* C83: `C83_light`, `C83_mixture`, `C83_factors`, `C83_balanced`, `C83_one`, `C83_dark`, `C83_contributions`, `C83_tilt`, `C83_refused`
* C84: `C84_nearest`, `C84_sodium`, `C84_maory`, `C84_named`, `C84_linear`, `C84_magnitudes`, `C84_fainter`, `C84_background`, `C84_density`, `C84_table`
* C85: `C85_bands`, `C85_reference`, `C85_elements`, `C85_dry`, `C85_dispersion`, `C85_humidity`, `C85_pressure`, `C85_pressure_jump`, `C85_shifts`, `C85_direction`, `C85_no_shift`, `C85_on_axis`, `C85_off_axis`, `shift_eq`
* C86: `C86_waves`, `C86_linear`, `C86_frequencies`, `C86_fresnel`, `C86_odd`, `C86_odd_shift`, `C86_energy`, `C86_light`, `C86_identity`, `C86_steps`, `C86_reduction`, `C86_band`, `C86_stored`, `C86_order`, `C86_up`, `C86_down`
* C87: `C87_power`, `C87_quarter`, `C87_variance`, `C87_mean`, `C87_spectrum`, `C87_bound`, `C87_axis`, `C87_between`, `C87_knots`, `C87_given`, `C87_modes`, `C87_from_zero`, `C87_seeds`, `C87_refused`, `C87_output`
* C88: `C88_transmission`, `C88_passive`, `C88_clear`, `C88_photons`, `C88_lyot`, `C88_lyot_empty`, `C88_lyot_corner`, `C88_knife`, `C88_quadrants`, `C88_null`, `C88_null_axis`, `C88_vortex`, `C88_vortex_middle`, `C88_vortex_opposite`, `C88_phases`, `C88_inner`, `C88_filter`, `C88_filter_off`, `C88_app_zone`, `C88_app_side`, `C88_arguments`, `C88_resampling`
* C89: `C89_axis`, `C89_leakage`, `C89_strehl`, `C89_contrast`, `C89_least`, `C89_least_core`, `C89_flat_core`, `C89_flat_average`, `C89_piston`, `C89_waves`, `C89_waves_core`, `C89_off_axis`, `C89_long_exposure`
* C90: `C90_disc`, `C90_small_disc`, `C90_total`, `C90_polar`, `C90_rings`, `C90_one_ring`, `C90_no_rings`, `C90_given_rings`, `C90_fwhm`, `C90_gauss_rings`, `C90_gauss`, `C90_tilt`, `C90_focus`, `C90_no_focus`, `C90_layers`, `C90_threshold`, `C90_weak`, `C90_growing`, `C90_batches`
* C91: `C91_geometry`, `C91_elongation`, `C91_spot`, `C91_subapertures`, `C91_pixels`, `C91_map`, `C91_aim`, `C91_unit_sum`, `C91_order`, `C91_indices`, `C91_gaussian`, `C91_scale`, `C91_image`, `C91_light`, `C91_mirror`, `C91_focus`, `C91_files`, `C91_sequence`, `C91_not_transformed`, `C91_failure_forgotten`
* C92: `C92_slopes`, `C92_tilt`, `C92_piston`, `C92_scale`, `C92_outside`, `C92_partly_flat`, `C92_sum`, `C92_curved`, `C92_units`, `C92_sequence`, `C92_refused`, `C92_not_additive`, `C92_stale`
* C93: `C93_run`, `C93_regular`, `C93_no_error`, `C93_sensitivity`, `C93_unperturbed`, `C93_gains`, `C93_carrier`, `C93_truth`, `C93_correction`, `C93_orthogonal`, `C93_overlap`, `C93_forgetting`, `C93_dark`, `C93_iterations`, `C93_converges`, `C93_wrong_way`, `C93_column`, `C93_six_params`, `C93_constructor`
* C94: `C94_edge`, `C94_shift`, `C94_derivative`, `C94_derivative_image`, `C94_noise`, `C94_least_squares`, `C94_first_order`, `C94_step`, `C94_phase`, `C94_output`, `C94_crop`, `C94_crop_edge`, `C94_fixed_point`, `C94_fixed_point_full`, `C94_tilt`, `C94_start`, `C94_tolerance`, `C94_geometry`, `C94_padding`, `C94_reference`
* C95: `C95_interference`, `C95_piston`, `C95_photons`, `C95_fringe_period`, `C95_rotation`, `C95_demod`, `C95_recover`, `C95_shift_even`, `C95_shift_odd`, `C95_odd_tilt`, `C95_even`, `C95_window`, `C95_odd`, `C95_even_any`, `C95_fringes`, `C95_bands`, `C95_end_to_end`, `C95_odd_fringes`, `C95_error`, `C95_gain`, `C95_range`, `C95_counts`, `C95_ctor`, `C95_amp`, `C95_second`, `C95_shared`, `C95_flat`
* C96: `C96_res`, `C96_focus`, `C96_focus_even`, `C96_odd`, `C96_even`, `C96_mirror`, `C96_sign`, `C96_defocus`, `C96_energy`, `C96_photons`, `C96_stop`, `C96_cut`, `C96_cut_large`, `C96_shift`, `C96_scale`, `C96_scale_wrong`, `C96_scale_same`, `C96_cases`
* C97: `focal_eq`, `back_eq`, `pupils_eq`, `C97_faces`, `C97_one_face`, `C97_plain`, `C97_energy`, `C97_mirror`, `C97_mirror_cols`, `C97_transpose`, `circle_cols`, `circle_rows`, `circle_diag`, `line_symm`, `C97_balance`, `C97_stop`, `C97_stop_symmetric`, `C97_piston`, `C97_tilt`, `C97_modulation`, `C97_wave`
* C98: `C98_spot`, `spot_split`, `spot_pixel`, `C98_interference`, `C98_monotone`, `C98_no_shift`, `C98_spot_light`, `C98_spot_symmetry`, `C98_roof`, `C98_combined`, `C98_quadrant`, `C98_roof_psf`, `C98_roof_light`, `C98_wave`, `fpField_ident`
* C99: `C99_reset`, `C99_gain`, `C99_integrator`, `C99_delay`, `C99_zero_start`, `C99_one_element`, `modeRun_modulation`, `modeRun_integrator`, `modeRun_buf`

## propext, Quot.sound

* C03: `C03_order_nodup`
* C103: `C103_tiles`, `C103_two_ways`
* C109: `C109_iterations`, `C109_first_error`, `C109_vector_error`, `C109_plotter`
* C110: `C110_image_split`, `C110_image_malformed`, `C110_data_one`, `C110_terms`, `C110_restore`, `C110_restore_gpu`, `C110_order`
* C113: `C113_numbers`
* C116: `C116_multirec_relative`
* C117: `C117_refresh`, `C117_overwritten`
* C119: `C119_later_init_ignored`, `C119_import_before_init`, `C119_explicit`, `C119_same_array`
* C122: `C122_crop_agree`, `C122_crop_center`, `C122_crop_center_left`
* C14: `C14_connects`
* C15: `C15_terminates`, `C15_fraction_deadlocks`, `C15_start_time_leftover`, `C15_fraction_wrong_value`
* C16: `C16_wire_format`
* C18: `C18_nonpositive_dt_never_ends`
* C19: `C19_guards`
* C21: `C21_list_input_delivers_in_order`, `C21_connection_refused_iff`, `C21_single_input`, `C21_set_replaces`
* C24: `C24_complete`
* C26: `C26_pickle_exact`, `C26_double_exact`, `C26_single_exact_ms`
* C31: `C31_alignment`
* C35: `C35_bound`, `C35_carried`
* C36: `C36_bound`
* C38: `C38_shlike_unusable`, `C38_padding_fails`
* C40: `C40_slicer`, `C40_insert_other`, `C40_init_size`, `C40_init_negative_stop`
* C42: `C42_merged`, `C42_order`, `C42_not_finite_for_ever`, `C42_small_layer`, `C42_combinator`, `C42_combinator_not_square`, `C42_combinator_mismatch`
* C43: `C43_full_turn`
* C46: `C46_no_exposure`
* C47: `C47_subtracted`, `C47_idle_sum_zero`, `C47_load_ignored`, `C47_bad_request_raises`
* C48: `C48_source_at_infinity`, `C48_iir`, `C48_set_value_time_last`
* C50: `C50_total`, `C50_import`
* C58: `C58_constant`, `C58_constant_vector`, `C58_one_operation`, `C58_same_size`, `C58_shorter`, `C58_concat`, `C58_raises`
* C59: `C59_no_second_low_orders`
* C60: `C60_history`
* C61: `C61_fires`, `C61_modes_ignored`
* C66: `C66_pixel`, `C66_length`, `C66_rest`
* C69: `C69_full`
* C70: `C70_set_nslopes`
* C72: `C72_update`
* C73: `C73_no_photon_noise`
* C76: `C76_short_fails`
* C77: `C77_fov_too_large`, `C77_detector`
* C78: `C78_rows`
* C83: `C83_no_tilt`
* C94: `C94_frame`
* C96: `C96_no_signal`
* C99: `dynRun_eq`, `C99_vector_raises`

## propext

* C110: `C110_data_waits`, `C110_lookup`
* C116: `C116_frame`, `C116_keeps`
* C119: `C119_disable`
* C120: `C120_same_device`
* C121: `C121_subaps`
* C14: `C14_shared_data_input_fails`
* C17: `C17_same_output_twice`
* C18: `C18_negative_run_time_never_ends`
* C19: `C19_unconnected_optional_list_never_triggers`
* C26: `C26_fits_exact`, `C26_single_loses_sample`
* C48: `C48_set_value_ambiguous`
* C61: `C61_wrong_mode`
* C67: `C67_both_all`

## none

* C110: `C110_reordered`, `C110_status_reordered`
* C120: `C120_shape_change`
* C16: `C16_unset_again_fails`
* C18: `C18_niters_counterexample_fraction`, `C18_niters_counterexample_t0`, `C18_second_run_counterexample`
* C21: `C21_flatten`
* C25: `C25_extra_sample`, `C25_split_tail_lost`, `C25_split_one_duplicates`
