{
 "claims": [
  {
   "property": "C01",
   "status": "proved",
   "theorems": [
    "C01_undelayed_producer_first",
    "C01_positive_delay_counterexample"
   ],
   "note": "Delays are assumed <= 0 (the documented ':-n' syntax); C01_positive_delay_counterexample shows the code misorders positive delays."
  },
  {
   "property": "C02",
   "status": "proved",
   "theorems": [
    "C02_delayed_consumer_first"
   ],
   "note": ""
  },
  {
   "property": "C03",
   "status": "proved",
   "theorems": [
    "C03_order_nodup",
    "C03_order_iff_schedulable",
    "C03_error_iff",
    "C03_complete",
    "C03_left_out_reason"
   ],
   "note": "Exact characterisation: success, contents and error condition."
  },
  {
   "property": "C04",
   "status": "proved",
   "theorems": [
    "C04_cycle_never_runs",
    "C04_self_delayed_never_runs"
   ],
   "note": ""
  },
  {
   "property": "C05",
   "status": "proved",
   "theorems": [
    "C05_loop_is_synchronous_dataflow",
    "C05_post_trigger_counterexample"
   ],
   "note": "Objects are arbitrary state machines. The side condition SameIndexSafe is part of the property; C05_post_trigger_counterexample shows it is needed."
  },
  {
   "property": "C06",
   "status": "proved",
   "theorems": [
    "C06_success_order_independent",
    "C06_results_order_independent"
   ],
   "note": "Same side condition as C05."
  },
  {
   "property": "C07",
   "status": "proved",
   "theorems": [
    "C07_build_order",
    "C07_circular_rejected",
    "C07_build_order_exists"
   ],
   "note": "Soundness, rejection of circular references, and existence for acyclic references (recursion limit above the number of objects)."
  },
  {
   "property": "C08",
   "status": "proved",
   "theorems": [
    "C08_remove"
   ],
   "note": "On the text level, through combine_params' remove entry; C01-C04 use the parsed version."
  },
  {
   "property": "C09",
   "status": "proved",
   "theorems": [
    "C09_combine",
    "C09_override_unknown_raises",
    "C09_redefine_raises",
    "C09_remove_unknown_raises",
    "C09_others_unchanged"
   ],
   "note": "Refinement of combine_params to a relational specification (Combined) plus the raising cases and the frame condition."
  },
  {
   "property": "C10",
   "status": "proved",
   "theorems": [
    "C10_override",
    "C10_wrong_dots_raise",
    "C10_accepted_iff",
    "C10_overrides"
   ],
   "note": "Single overrides, sequences of overrides, acceptance condition."
  },
  {
   "property": "C100",
   "status": "proved",
   "theorems": [
    "C100_butterworth",
    "C100_cutoff",
    "C100_first",
    "C100_amplification",
    "C100_agreement",
    "C100_rejections",
    "C100_negative",
    "HasResponse.unique"
   ],
   "note": "Numbers are real. With the gain modulation at one and delay zero; the delayed output is C28 on top of it."
  },
  {
   "property": "C101",
   "status": "proved",
   "theorems": [
    "C101_square",
    "C101_circular",
    "C101_ring_gap",
    "C101_alpao",
    "C101_influence",
    "C101_coupling",
    "C101_masters",
    "C101_surface",
    "C101_standard",
    "C101_near",
    "C101_virtual",
    "C101_plane_fit",
    "C101_not_collinear",
    "C101_planes"
   ],
   "note": "Numbers are real. The thin plate spline of scipy and np.linalg.lstsq are parameters; the least squares solver is only used when the normal matrix is singular, and for planes with its defining equations."
  },
  {
   "property": "C102",
   "status": "proved",
   "theorems": [
    "C102_frequency",
    "C102_waves",
    "C102_columns",
    "C102_rows",
    "C102_covariance",
    "C102_homogeneous",
    "C102_spectrum",
    "C102_kolmogorov",
    "C102_dimension",
    "C102_draws"
   ],
   "note": "Numbers are real. The generator of random numbers is a parameter; the covariance is defined from the answers to single draws. The statement is that of the code: the missing row of frequencies is recorded as a disagreement in DESIGN.md."
  },
  {
   "property": "C103",
   "status": "proved",
   "theorems": [
    "C103_tiles",
    "C103_disjoint",
    "C103_schedule",
    "C103_held",
    "C103_every",
    "C103_not_held",
    "C103_scale",
    "C103_variance",
    "C103_store",
    "C103_exact",
    "C103_kept",
    "C103_list",
    "C103_confused",
    "C103_two_ways",
    "C103_lag",
    "C103_wrap"
   ],
   "note": "Numbers are exact; file names are modelled by the numbers printed in them; the computation of a screen is a parameter. The three disagreements are proved with witnesses and recorded in DESIGN.md."
  },
  {
   "property": "C104",
   "status": "proved",
   "theorems": [
    "C104_valid",
    "C104_same",
    "C104_sizes",
    "C104_fill",
    "C104_range",
    "C104_once",
    "C104_columns",
    "C104_dark"
   ],
   "note": "Exact arithmetic, layers without NaN on input; the dictionary of block sizes is a function of the layer. The disagreements are proved and recorded in DESIGN.md."
  },
  {
   "property": "C105",
   "status": "proved",
   "theorems": [
    "C105_elongation",
    "C105_zenith",
    "C105_farther",
    "C105_corner",
    "C105_truncated",
    "C105_blocks",
    "C105_inverse",
    "C105_across",
    "C105_positive",
    "C105_diagonal"
   ],
   "note": "Real numbers; elongations and fluxes from fitted images are given numbers; argsort is any list of indices in order of distance. A truncated sub-aperture exactly at the launcher (division of zero by zero, NaN in the code) is excluded in C105_across."
  },
  {
   "property": "C106",
   "status": "proved",
   "theorems": [
    "C106_grid",
    "C106_spectrum",
    "C106_projected",
    "C106_covmat",
    "C106_filtered",
    "C106_filtered_last",
    "C106_filtered_witness",
    "C106_filt_unused",
    "C106_modes",
    "C106_zero_mean",
    "C106_condition",
    "C106_kept",
    "C106_zern_commands",
    "C106_kl_commands",
    "C106_plain_commands",
    "C106_commands_witness"
   ],
   "note": "Real numbers; svd is any function that returns a decomposition of symmetric non-negative matrices (shown to exist); the Zernike modes after QR, normalisation and projection are given by their commands, whatever they are."
  },
  {
   "property": "C107",
   "status": "proved",
   "theorems": [
    "C107_paa",
    "C107_layer_speed",
    "C107_layer_speed_linear",
    "C107_wind_speed",
    "C107_wind_bounds",
    "C107_wind_same",
    "C107_direction",
    "C107_direction_witness",
    "C107_delays",
    "C107_delays_zenith",
    "C107_power_accepts",
    "C107_power_flux",
    "C107_power_scaling",
    "C107_reflection"
   ],
   "note": "Real numbers, one layer at a time; the speed of light is the constant of the code."
  },
  {
   "property": "C108",
   "status": "proved",
   "theorems": [
    "C108_scale",
    "C108_best_fit",
    "C108_pupil",
    "C108_skipped",
    "C108_first",
    "C108_start_one",
    "C108_odd",
    "C108_rows",
    "C108_neutral_on_axis"
   ],
   "note": "Real numbers; the pseudo inverse is characterised by two of Penrose's equations for the matrix it is given."
  },
  {
   "property": "C109",
   "status": "proved",
   "theorems": [
    "C109_history",
    "C109_iterations",
    "C109_drift",
    "C109_after_error",
    "C109_blank",
    "C109_first_error",
    "C109_indices",
    "C109_indices_kept",
    "C109_vector",
    "C109_vector_error",
    "C109_plotter"
   ],
   "note": "histlen at least 1; drawing, limits and legends are not modelled. matplotlib: a new line with vectors of different lengths is refused, Axes.clear removes lines."
  },
  {
   "property": "C11",
   "status": "proved",
   "theorems": [
    "C11_accepts_iff",
    "C11_roundtrip",
    "C11_repeated_rejected"
   ],
   "note": "Exact characterisation of accepted texts, round trip, rejection of repeated separators. ASCII digits only in the delay."
  },
  {
   "property": "C110",
   "status": "proved",
   "theorems": [
    "C110_image_split",
    "C110_image_malformed",
    "C110_data_one",
    "C110_data_malformed",
    "C110_data_waits",
    "C110_terms",
    "C110_lookup",
    "C110_speed",
    "C110_restore",
    "C110_restore_fails",
    "C110_restore_gpu",
    "C110_conserved",
    "C110_all",
    "C110_reordered",
    "C110_order",
    "C110_status_reordered"
   ],
   "note": "Operations on the queue are atomic; the web clients, time outs, failures of the queue and the conversion of the data are not modelled."
  },
  {
   "property": "C111",
   "status": "proved",
   "theorems": [
    "C111_sum",
    "C111_flux",
    "C111_sum_raises",
    "C111_border",
    "C111_sky",
    "C111_amp",
    "C111_fwhm",
    "C111_peak",
    "C111_fit",
    "C111_raised",
    "C111_converged_ignored",
    "C111_zero_alpha"
   ],
   "note": "Exact real numbers; the fit of astropy is arbitrary (raises, or gives parameters and whether it converged). alpha is taken positive for the width."
  },
  {
   "property": "C112",
   "status": "proved",
   "theorems": [
    "C112_null",
    "C112_null_static",
    "C112_null_empty",
    "C112_print",
    "C112_print_gap"
   ],
   "note": "Exact real numbers; the file and the text printed are not modelled."
  },
  {
   "property": "C113",
   "status": "proved",
   "theorems": [
    "C113_numbers",
    "C113_mean",
    "C113_rms",
    "C113_span",
    "C113_product",
    "C113_orthogonal_iff",
    "C113_orthogonal",
    "C113_not_orthogonal",
    "C113_repaired"
   ],
   "note": "Exact real numbers; linalg.qr is trusted to give a QR decomposition; fewer modes than pixels."
  },
  {
   "property": "C114",
   "status": "proved",
   "theorems": [
    "C114_update",
    "C114_between",
    "pupDynRun_window",
    "C114_measure",
    "C114_after_failure",
    "C114_status_lost",
    "C114_invalid",
    "C114_no_dt",
    "C114_zero_dt"
   ],
   "note": "The measurement is an arbitrary function (see C-properties of PupCal for it); saving is not modelled."
  },
  {
   "property": "C115",
   "status": "proved",
   "theorems": [
    "C115_resample_defined",
    "C115_resample_near",
    "C115_decimate",
    "C115_not_centred",
    "C115_piston",
    "C115_slope",
    "C115_undefined",
    "C115_usable",
    "C115_lost_segment",
    "C115_tip_tilt",
    "C115_not_orthogonal",
    "C115_rigid",
    "C115_rows",
    "C115_normalised",
    "C115_orthogonal_segments"
   ],
   "note": "Exact real numbers (the code stores dtype); the map is arbitrary; saving and plots are not modelled."
  },
  {
   "property": "C116",
   "status": "proved",
   "theorems": [
    "C116_frame",
    "C116_keeps",
    "C116_same_path",
    "C116_extension",
    "C116_rec",
    "C116_sn",
    "C116_sn_checked",
    "C116_empty_dir",
    "C116_subdirectory",
    "C116_multirec",
    "C116_multirec_no_dir",
    "C116_multirec_relative",
    "C116_multirec_collision",
    "C116_names"
   ],
   "note": "Paths are compared as text; what is written is arbitrary (contents: C34, C68, C69, C74, C112)."
  },
  {
   "property": "C117",
   "status": "proved",
   "theorems": [
    "C117_values",
    "C117_schedule",
    "C117_refresh",
    "C117_overwritten",
    "C117_terminal",
    "C117_no_blank"
   ],
   "note": "The queue may look empty too early; a trigger that never ends because pairs keep arriving is not modelled."
  },
  {
   "property": "C118",
   "status": "proved",
   "theorems": [
    "C118_measured",
    "C118_no_memory",
    "C118_brightness",
    "C118_linear_part",
    "C118_sign_ignored",
    "C118_start_ignored",
    "C118_threshold_ignored"
   ],
   "note": "The pyramid with its interpolator is an arbitrary function of registration and phase (C77 and C97 treat it); mirrors with m2c are not covered."
  },
  {
   "property": "C119",
   "status": "proved",
   "theorems": [
    "C119_default",
    "C119_later_init_ignored",
    "C119_import_before_init",
    "C119_explicit",
    "C119_disable",
    "C119_shared",
    "C119_values",
    "C119_value_is_copy",
    "C119_same_array",
    "C119_history_shared"
   ],
   "note": "Scalars held by BaseValue and repetition of single numbers are not modelled; conversion of values is an arbitrary function."
  },
  {
   "property": "C12",
   "status": "proved",
   "theorems": [
    "C12_replay",
    "C12_replay_closed",
    "C12_list_reference_dangles",
    "C12_delayed_reference_dangles"
   ],
   "note": "Exact content of the replay file; closure when references to removed objects are plain. The code leaves list and delayed references dangling (two counterexample theorems)."
  },
  {
   "property": "C120",
   "status": "proved",
   "theorems": [
    "C120_follows",
    "C120_arrays_current",
    "C120_numbers_frozen",
    "C120_same_device",
    "C120_new_array_raises",
    "C120_shape_change"
   ],
   "note": "Attributes that contain arrays inside other objects, repetition of arrays of size one, and remote inputs (C16) are not covered."
  },
  {
   "property": "C121",
   "status": "proved",
   "theorems": [
    "C121_intmat",
    "C121_recmat",
    "C121_no_memory",
    "C121_works_iff",
    "C121_subaps"
   ],
   "note": "SynIM is an arbitrary function that is linear in the amplitude of the shape; pinv is any left inverse of injective matrices."
  },
  {
   "property": "C122",
   "status": "proved",
   "theorems": [
    "C122_crop_slice",
    "C122_crop_agree",
    "C122_crop_center",
    "C122_crop_center_left",
    "C122_log",
    "C122_log_deep",
    "C122_psf",
    "C122_linear",
    "C122_linear_pixels",
    "C122_quadrants",
    "C122_quadrants_odd"
   ],
   "note": "Matplotlib is reduced to the data and the colour range. Drawing of pupils is not modelled."
  },
  {
   "property": "C123",
   "status": "proved",
   "theorems": [
    "C123_responses",
    "C123_rtf_ntf",
    "C123_pole",
    "C123_infinite",
    "C123_loop"
   ],
   "note": "Exact arithmetic; the loop is the one of C55, with as many numerator as denominator coefficients."
  },
  {
   "property": "C124",
   "status": "proved",
   "theorems": [
    "C124_get_poles",
    "C124_inside_out",
    "C124_set_poles",
    "C124_pole_zero",
    "C124_resonance",
    "C124_analysis",
    "C124_pole_zero_one"
   ],
   "note": "np.roots is exact; of the array of poles only the filled entries, without order."
  },
  {
   "property": "C125",
   "status": "proved",
   "theorems": [
    "C125_from",
    "C125_from_exact",
    "C125_from_wrong",
    "C125_to",
    "C125_roundtrip"
   ],
   "note": "Assumes of control.TransferFunction, which is not installed here, that it removes leading zeros of the coefficients and raises for a zero denominator. Exact arithmetic."
  },
  {
   "property": "C126",
   "status": "proved",
   "theorems": [
    "C126_optimal",
    "C126_noise_raises",
    "C126_vector",
    "C126_few_modes",
    "C126_calibrator"
   ],
   "note": "Exact arithmetic over the reals; square covariances; the covariance of the turbulence must be diagonal or have some correlation of at least 1e-10, as in C68."
  },
  {
   "property": "C127",
   "status": "proved",
   "theorems": [
    "C127_shown",
    "C127_set",
    "C127_auto",
    "C127_empty"
   ],
   "note": "Matplotlib is reduced to the values of the line and the limits."
  },
  {
   "property": "C13",
   "status": "proved",
   "theorems": [
    "C13_targeted_replay",
    "C13_targeted_replay_exists",
    "C13_list_input_truncated",
    "C13_two_stores_dangle"
   ],
   "note": "Closure for files with at most one DataStore, and existence. List inputs are truncated and with two DataStores the data source misses the first one's outputs (counterexample theorems)."
  },
  {
   "property": "C14",
   "status": "proved",
   "theorems": [
    "C14_placement",
    "C14_connections",
    "C14_paired",
    "C14_connects",
    "C14_single_process",
    "C14_shared_data_input_fails"
   ],
   "note": "Placement, exact characterisation of the registered connections, pairing of sends and receives and absence of failures, for every file whose linked producers are processing objects; a counterexample shows why the proviso is needed."
  },
  {
   "property": "C15",
   "status": "proved",
   "theorems": [
    "C15_no_deadlock",
    "C15_terminates",
    "C15_completes",
    "C15_delivered",
    "C15_all_received",
    "C15_fraction_deadlocks",
    "C15_start_time_leftover",
    "C15_fraction_wrong_value"
   ],
   "note": "Operational semantics with buffered sends, blocking receives and barriers; progress, termination, delivery and completeness over all interleavings. Counterexamples for run times that are not a multiple of the step (deadlock, wrong value) and for start times other than 0 (message left over)."
  },
  {
   "property": "C16",
   "status": "proved",
   "theorems": [
    "C16_wire_format",
    "C16_unset_again_fails"
   ],
   "note": "Sender and receiver modelled with separate data and generation-time channels; values are unset or arrays. A value that becomes unset again makes the send fail (shown)."
  },
  {
   "property": "C17",
   "status": "proved",
   "theorems": [
    "C17_text_injective",
    "C17_tags_differ",
    "C17_collision",
    "C17_same_output_twice"
   ],
   "note": "The tag text determines the link; tags differ when the hash separates the texts modulo 10^6; no hash does so for all links, and one pair of links always collides (same output twice in one list input)."
  },
  {
   "property": "C18",
   "status": "proved",
   "theorems": [
    "C18_iteration_times",
    "C18_negative_run_time_never_ends",
    "C18_nonpositive_dt_never_ends",
    "C18_niters_correct",
    "C18_niters_counterexample_fraction",
    "C18_niters_counterexample_t0",
    "C18_second_run_counterexample"
   ],
   "note": "Exact ticks (conversion from seconds is C27). Three counterexample theorems show where niters()/last_iter disagree with the executed iterations."
  },
  {
   "property": "C19",
   "status": "proved",
   "theorems": [
    "C19_iteration",
    "C19_run",
    "C19_guards",
    "C19_loop_calls",
    "C19_unconnected_optional_list_never_triggers"
   ],
   "note": "Single object, arbitrary call histories, and the whole loop."
  },
  {
   "property": "C20",
   "status": "proved",
   "theorems": [
    "C20_follows_producer",
    "C20_chain_rate",
    "C20_delayed_only_never_triggers"
   ],
   "note": ""
  },
  {
   "property": "C21",
   "status": "proved",
   "theorems": [
    "C21_list_input_delivers_in_order",
    "C21_connection_refused_iff",
    "C21_single_input",
    "C21_set_replaces",
    "C21_flatten"
   ],
   "note": "Local connections; remote ones are C14-C16."
  },
  {
   "property": "C22",
   "status": "proved",
   "theorems": [
    "C22_frames",
    "C22_tiling",
    "C22_conserved",
    "C22_unaligned_never_fires",
    "C22_stale_input_merges_windows"
   ],
   "note": "One pixel over any field; input renewed at every step; start a multiple of the step (never fires otherwise, proved). Stale inputs at a window's last step merge two windows: concrete case proved."
  },
  {
   "property": "C23",
   "status": "proved",
   "theorems": [
    "C23_window_means",
    "C23_refresh"
   ],
   "note": "One element over any field of characteristic zero."
  },
  {
   "property": "C24",
   "status": "proved",
   "theorems": [
    "C24_blocks",
    "C24_complete"
   ],
   "note": "Any number of inputs, any pattern of fresh samples."
  },
  {
   "property": "C25",
   "status": "proved",
   "theorems": [
    "C25_no_split",
    "C25_history",
    "C25_increasing",
    "C25_finalize_sample",
    "C25_split",
    "C25_split_complete",
    "C25_split_short",
    "C25_extra_sample",
    "C25_split_tail_lost",
    "C25_split_one_duplicates"
   ],
   "note": "The additional last sample, the lost tail with splitting and the duplicate with chunks of one trigger are proved as concrete cases."
  },
  {
   "property": "C26",
   "status": "proved",
   "theorems": [
    "C26_replay",
    "C26_refresh",
    "C26_fits_exact",
    "C26_pickle_exact",
    "C26_double_exact",
    "C26_single_exact_ms",
    "C26_single_loses_sample"
   ],
   "note": "Values are not changed by the file (conversion to the object's own precision is not modelled). Single precision pickle loses samples: concrete case proved."
  },
  {
   "property": "C27",
   "status": "proved",
   "theorems": [
    "C27_within_one_tick",
    "C27_exact_from_above",
    "C27_exact_binary",
    "C27_round_trip",
    "C27_65us",
    "C27_130us",
    "C27_multiple_rejected"
   ],
   "note": "Binary floating point with unbounded exponent range. The original claim (always exact) is false; counterexamples proved."
  },
  {
   "property": "C28",
   "status": "proved",
   "theorems": [
    "C28_integer_delay",
    "C28_fractional_delay",
    "C28_memory",
    "C28_early_view"
   ],
   "note": "integer and fractional delays, zero before the start; the published view of an integer delay already shows the next output after the buffer shift"
  },
  {
   "property": "C29",
   "status": "proved",
   "theorems": [
    "C29_difference_equation",
    "C29_fir",
    "C29_linear",
    "C29_integrator"
   ],
   "note": "difference equation, linearity, integrator closed form, FIR without integration"
  },
  {
   "property": "C30",
   "status": "proved",
   "theorems": [
    "C30_same_integrator",
    "C30_independent",
    "C30_vector",
    "C30_old_state_late"
   ],
   "note": "both filter kinds as state machines; block diagonal independence in both output modes"
  },
  {
   "property": "C31",
   "status": "proved",
   "theorems": [
    "C31_set_gain",
    "C31_gain_is_coefficient",
    "C31_alignment",
    "C31_zero_gain_lost",
    "C31_zero_gain_mismatch"
   ],
   "note": "for filters with non-zero leading coefficient; counterexamples for zero leading coefficient"
  },
  {
   "property": "C32",
   "status": "proved",
   "theorems": [
    "C32_delay_tf"
   ],
   "note": "all rational delays >= 0"
  },
  {
   "property": "C33",
   "status": "proved",
   "theorems": [
    "C33_implicit",
    "C33_explicit",
    "C33_agree",
    "C33_runs_agree",
    "C33_perfect",
    "C33_residual",
    "C33_stale_slopes_differ"
   ],
   "note": "Over any commutative ring; sequences of iterations with arbitrary freshness pattern."
  },
  {
   "property": "C34",
   "status": "proved",
   "theorems": [
    "C34_calibration",
    "C34_recovers",
    "C34_zero_sum_not_enough",
    "C34_wrong_first_mode_wraps"
   ],
   "note": "Exact over any field of characteristic zero. Witnesses: a zero-sum pattern is not enough, a wrong first_mode wraps to the last columns."
  },
  {
   "property": "C35",
   "status": "proved",
   "theorems": [
    "C35_optimum",
    "C35_bound",
    "C35_carried",
    "C35_increment",
    "C35_positive",
    "C35_settles",
    "C35_pseudo_open_loop",
    "C35_first_iteration_sets_one"
   ],
   "note": "The cost function is a parameter of the model (any function). The first-iteration exception is proved as a witness."
  },
  {
   "property": "C36",
   "status": "proved",
   "theorems": [
    "C36_bound",
    "C36_update",
    "C36_direction",
    "C36_converges"
   ],
   "note": "Real-valued estimate."
  },
  {
   "property": "C37",
   "status": "proved",
   "theorems": [
    "C37_step_up",
    "C37_step_near",
    "C37_rebin_accepts",
    "C37_rebin_rejects_wide",
    "C37_rebin_mean",
    "C37_toccd",
    "C37_toccd_same_shape",
    "C37_toccd_49_fails"
   ],
   "note": "Pixel arithmetic in an ordered field; the sampling grid with double rounding. CPU branch only."
  },
  {
   "property": "C38",
   "status": "proved",
   "theorems": [
    "C38_slopes",
    "C38_brightness",
    "C38_balanced",
    "C38_bound",
    "C38_rotation",
    "C38_intensities",
    "C38_dark_not_finite",
    "C38_shlike_unusable",
    "C38_padding_fails",
    "C38_negative_norm"
   ],
   "note": "Ordered field arithmetic; non finite values as none."
  },
  {
   "property": "C39",
   "status": "proved",
   "theorems": [
    "C39_centroid",
    "C39_bound",
    "C39_brightness",
    "C39_symmetric",
    "C39_shift",
    "C39_dark_not_finite"
   ],
   "note": "Ordered field arithmetic; thr_value, any mask, exp_weight 1."
  },
  {
   "property": "C40",
   "status": "proved",
   "theorems": [
    "C40_slice_up",
    "C40_slice_down",
    "C40_select",
    "C40_slicer",
    "C40_insert_other",
    "C40_round_trip",
    "C40_no_memory",
    "C40_init_size",
    "C40_init_negative_stop"
   ],
   "note": "One-dimensional arrays; aliasing of the slice output with the input is not modelled."
  },
  {
   "property": "C41",
   "status": "proved",
   "theorems": [
    "C41_last_command",
    "C41_linear",
    "C41_constant_length",
    "C41_shorter_keeps_old",
    "C41_m2c",
    "C41_m2c_long_raises",
    "C41_modes"
   ],
   "note": "dm.py mode selection and trigger_code over any field. The original text is false for a command shorter than the one before (stale entries kept): C41_shorter_keeps_old."
  },
  {
   "property": "C42",
   "status": "proved",
   "theorems": [
    "C42_merged",
    "C42_order",
    "C42_complex",
    "C42_not_finite_for_ever",
    "C42_small_layer",
    "C42_split_raises",
    "C42_combinator",
    "C42_combinator_not_square",
    "C42_combinator_mismatch"
   ],
   "note": "ElectricField reset/resize/product/ef_at_lambda/square_modulus, AtmoPropagation.trigger_code without Fresnel, ElectricFieldCombinator. Interpolators are arbitrary functions here."
  },
  {
   "property": "C43",
   "status": "proved",
   "theorems": [
    "C43_inside",
    "C43_value",
    "C43_advance",
    "C43_cycle",
    "C43_full_turn",
    "C43_negative_raises",
    "C43_strips",
    "C43_field_of_view",
    "C43_pupil_position_too_small"
   ],
   "note": "One layer (operations are element-wise), exact arithmetic. The position does not wrap consistently: it restarts from zero (C43_cycle). pixel_layer doubles instead of squaring the pupil coordinates: C43_pupil_position_too_small."
  },
  {
   "property": "C44",
   "status": "proved",
   "theorems": [
    "C44_radial_order",
    "C44_total",
    "C44_injective",
    "C44_surjective",
    "C44_ordered",
    "C44_last_of_degree",
    "C44_bound_needed"
   ],
   "note": "Any precision p >= 2 bits with correctly rounded square root, index bounded by 8j+1 <= 2^p (for doubles j < 2^50); C44_bound_needed shows that the bound cannot be dropped. The polynomial values themselves are scipy's."
  },
  {
   "property": "C45",
   "status": "proved",
   "theorems": [
    "C45_flux",
    "C45_pixels",
    "C45_distances_increase",
    "C45_energy_within",
    "C45_distribution",
    "C45_image",
    "C45_uniform_area",
    "C45_interpolated",
    "C45_outside",
    "C45_at_distance_monotone",
    "C45_query",
    "C45_query_image",
    "C45_pixel",
    "C45_default_centre",
    "C45_fwhm",
    "C45_fwhm_ring",
    "C45_odd_centre"
   ],
   "note": "Exact arithmetic (reals for the square roots). The proviso of the FWHM cannot be dropped (C45_fwhm_ring: 5 for a ring of radius 2), and the default centre of images of odd size is half a pixel off the central pixel (C45_odd_centre)."
  },
  {
   "property": "C46",
   "status": "proved",
   "theorems": [
    "C46_long_exposure",
    "C46_no_exposure",
    "C46_unit_flux",
    "C46_strehl",
    "C46_piston",
    "C46_whole_waves",
    "C46_tilt",
    "C46_strehl_above_one"
   ],
   "note": "Exact arithmetic; FFT as the discrete Fourier transform (Parseval and shift theorem proved). If the amplitude becomes more uniform after the first trigger the Strehl ratio exceeds 1: C46_strehl_above_one."
  },
  {
   "property": "C47",
   "status": "proved",
   "theorems": [
    "C47_mean",
    "C47_subtracted",
    "C47_idle_sum_zero",
    "C47_load_ignored",
    "C47_bad_request_raises",
    "C47_request_during_acquisition",
    "C47_new_nframes_during_acquisition"
   ],
   "note": "The original wording (whatever requests arrive) is false of the code: C47_request_during_acquisition and C47_new_nframes_during_acquisition are witnesses. Load requests have no effect and bad requests raise."
  },
  {
   "property": "C48",
   "status": "proved",
   "theorems": [
    "C48_electric_field",
    "C48_layer",
    "C48_pupilstop",
    "C48_intensity",
    "C48_pixels",
    "C48_slopes",
    "C48_source",
    "C48_source_at_infinity",
    "C48_llt",
    "C48_recmat",
    "C48_intmat",
    "C48_intmat_normalisation_lost",
    "C48_ifunc",
    "C48_m2c",
    "C48_subapdata",
    "C48_pupdata",
    "C48_iir",
    "C48_iir_shifts",
    "C48_spatio_temporal",
    "C48_set_value_time_last",
    "C48_set_value_ambiguous"
   ],
   "note": "FITS files are modelled as a header and a list of arrays (trusted description of astropy). The plain statement (every object restores to an equal one) is false of the code; the exceptions are proved: C48_intmat (fields restored into the wrong attributes, second save raises), C48_intmat_normalisation_lost, C48_source_at_infinity (default source cannot be saved), C48_iir_shifts, C48_set_value_ambiguous; layers lose S0, pupil stops their phase, M2C its normalisation, Recmat its layer map."
  },
  {
   "property": "C49",
   "status": "proved",
   "theorems": [
    "C49_path",
    "C49_distinct",
    "C49_extension_optional",
    "C49_absolute",
    "C49_shared_directories"
   ],
   "note": "Path formula, injectivity as an iff, optional extension, absolute tags, shared directories. Strings are character lists, POSIX join."
  },
  {
   "property": "C50",
   "status": "proved",
   "theorems": [
    "C50_total",
    "C50_lowercase",
    "C50_only_case",
    "C50_words",
    "C50_distinct",
    "C50_collisions",
    "C50_import"
   ],
   "note": "Original wording (all library names distinct) is false for names differing in capitals only: C50_collisions. ASCII classes of the regular expression."
  },
  {
   "property": "C51",
   "status": "proved",
   "theorems": [
    "C51_set_get",
    "C51_complete",
    "C51_odd_lost",
    "C51_reference",
    "C51_filter",
    "C51_filter_projects",
    "C51_filter_documented_axes",
    "C51_post_reference"
   ],
   "note": "Field arithmetic, shapes checked."
  },
  {
   "property": "C52",
   "status": "proved",
   "theorems": [
    "C52_rotate",
    "C52_compose",
    "C52_norm",
    "C52_quarter",
    "C52_flip_not_additive"
   ],
   "note": "Real numbers; arctan2 is Complex.arg."
  },
  {
   "property": "C53",
   "status": "proved",
   "theorems": [
    "C53_bounds",
    "C53_local",
    "C53_linear",
    "C53_plane",
    "C53_grid",
    "C53_accepted_sees_inside",
    "C53_refused",
    "C53_cut_same_parity",
    "C53_cut_half_pixel",
    "C53_shift_not_checked"
   ],
   "note": "Interp2D with precomputed coordinates on CPU, exact arithmetic; scipy's linear RegularGridInterpolator modelled by its definition."
  },
  {
   "property": "C54",
   "status": "proved",
   "theorems": [
    "C54_nearest",
    "C54_too_large",
    "C54_reported",
    "C54_odd_size",
    "C54_odd_pupil_raises"
   ],
   "note": "Exact arithmetic. The reported pixel size differs from the actual one for odd sizes (C54_odd_size)."
  },
  {
   "property": "C55",
   "status": "proved",
   "theorems": [
    "C55_loop_equation",
    "C55_settles",
    "C55_bounded",
    "C55_rejects_constant",
    "C55_unstable",
    "C55_max_gain",
    "C55_max_gain_settles",
    "C55_integrator_one_frame",
    "C55_length_mismatch"
   ],
   "note": "np.roots is the exact set of complex roots. The loop is one mode with a perfect sensor. C55_length_mismatch shows the proviso on lengths is needed."
  },
  {
   "property": "C56",
   "status": "proved",
   "theorems": [
    "multirate_ready",
    "C56_outputs",
    "C56_sum",
    "C56_idle",
    "C56_unknown_raises"
   ],
   "note": "Sizes of the slopes are those seen by setup."
  },
  {
   "property": "C57",
   "status": "proved",
   "theorems": [
    "C57_mixed",
    "C57_sum",
    "C57_barycentre",
    "C57_weights_normalised",
    "C57_integrator",
    "C57_sync"
   ],
   "note": "One mode, separate inputs; positive downsampling factors."
  },
  {
   "property": "C58",
   "status": "proved",
   "theorems": [
    "C58_constant",
    "C58_constant_vector",
    "C58_one_operation",
    "C58_same_size",
    "C58_shorter",
    "C58_filler",
    "C58_remap",
    "C58_concat",
    "C58_raises",
    "C58_stale"
   ],
   "note": "The statement that the output has no memory needs a second input of constant size: C58_stale shows a counterexample otherwise."
  },
  {
   "property": "C59",
   "status": "proved",
   "theorems": [
    "C59_mirrors",
    "C59_no_second_low_orders",
    "C59_inputs",
    "C59_linear"
   ],
   "note": "Mirror sizes without low orders for the second mirror (refused otherwise: C59_no_second_low_orders); plate scale index at least 5."
  },
  {
   "property": "C60",
   "status": "proved",
   "theorems": [
    "C60_schedule",
    "C60_schedule_checked",
    "C60_groups",
    "C60_history",
    "C60_wave",
    "C60_shapes",
    "C60_order",
    "C60_amplitudes"
   ],
   "note": "Times are rounded as in the code, values are real numbers; random numbers and vibrations are not modelled."
  },
  {
   "property": "C61",
   "status": "proved",
   "theorems": [
    "C61_seminorm",
    "C61_trend",
    "C61_simple_keeps_ramp",
    "C61_simple_ramp_amplitude",
    "C61_sine",
    "C61_phase",
    "C61_sine_exact",
    "C61_fires",
    "C61_blocks",
    "C61_modes_ignored",
    "C61_wrong_mode"
   ],
   "note": "Real numbers. With cumulated=False a ramp is not removed (C61_simple_keeps_ramp, C61_simple_ramp_amplitude), and mode_numbers is ignored (C61_modes_ignored, C61_wrong_mode)."
  },
  {
   "property": "C62",
   "status": "proved",
   "theorems": [
    "C62_update",
    "C62_converges"
   ],
   "note": "One mode, real numbers (for more than one element the object raises)."
  },
  {
   "property": "C63",
   "status": "proved",
   "theorems": [
    "C63_frozen_flow",
    "C63_no_drift",
    "C63_seeing",
    "C63_oblique_extrapolates",
    "C63_up_layer_wrong",
    "C63_double_speed"
   ],
   "note": "Real numbers; cosine and sine of the direction are inputs (exact along the axes). Oblique winds extrapolate (C63_oblique_extrapolates); the two-way evolution misplaces its layers (C63_up_layer_wrong, C63_double_speed)."
  },
  {
   "property": "C64",
   "status": "proved",
   "theorems": [
    "C64_two_sides",
    "C64_neighbour",
    "C64_smallest"
   ],
   "note": "stencil_size_factor = 1 (its default and only use)."
  },
  {
   "property": "C65",
   "status": "proved",
   "theorems": [
    "C65_rhs",
    "C65_unwrap",
    "C65_poisson",
    "C65_mean",
    "C65_turns",
    "C65_columns"
   ],
   "note": "real arithmetic; scipy's cosine transforms are their defining sums; the condition on the first and last columns is needed because the code overwrites the vertical part there"
  },
  {
   "property": "C66",
   "status": "proved",
   "theorems": [
    "C66_pixel",
    "C66_length",
    "C66_zero_mean",
    "C66_idempotent",
    "C66_piston",
    "C66_rest"
   ],
   "note": "exact arithmetic over an ordered field"
  },
  {
   "property": "C67",
   "status": "proved",
   "theorems": [
    "C67_mirror",
    "C67_mirror_m2c",
    "C67_ifunc",
    "C67_linear",
    "C67_list",
    "C67_sizes",
    "C67_both",
    "C67_both_all",
    "C67_pixels"
   ],
   "note": "exact arithmetic over a field; the pseudo-inverse is a parameter assumed to be a right inverse"
  },
  {
   "property": "C68",
   "status": "proved",
   "theorems": [
    "C68_optimal",
    "C68_unique",
    "C68_inverse",
    "C68_variance",
    "C68_uneven",
    "C68_no_noise",
    "C68_unit_noise",
    "C68_small_units",
    "C68_inverse_variance"
   ],
   "note": "Over ordered fields; the pseudo-inverse used for singular matrices is a parameter and never reached under the hypotheses. Correlations below 1e-10 are ignored by the code (counterexample C68_small_units); without noise the call fails for most shapes (C68_no_noise)."
  },
  {
   "property": "C69",
   "status": "proved",
   "theorems": [
    "C69_multi",
    "C69_full",
    "C69_end_to_end",
    "C69_build",
    "C69_mixed_pokes",
    "C69_stale_slopes",
    "C69_several_pokes",
    "C69_empty",
    "C69_absolute_dir",
    "C69_relative_dir",
    "C69_none_tag"
   ],
   "note": "Slopes of a linear sensor with offset; the pseudo-inverse is any matrix with the first Penrose condition. Counterexamples: several pokes in the same iteration, slopes that were not refreshed, relative data_dir, no tag for the full matrix."
  },
  {
   "property": "C70",
   "status": "proved",
   "theorems": [
    "C70_set_nslopes",
    "C70_set_nmodes",
    "C70_round_trip",
    "C70_reduce"
   ],
   "note": "Elements are read by the specification function IMat.entry, zero outside."
  },
  {
   "property": "C71",
   "status": "proved",
   "theorems": [
    "C71_defined",
    "C71_constant",
    "C71_plane",
    "C71_local",
    "C71_linear",
    "C71_inside",
    "C71_piston",
    "C71_tilt",
    "C71_outside",
    "C71_amplitude",
    "C71_lit",
    "C71_run",
    "C71_forced",
    "C71_short",
    "C71_stale",
    "C71_transpose",
    "C71_single_precision"
   ],
   "note": "Exact arithmetic; rd is an arbitrary rounding of the coefficients where possible. C71_short, C71_stale, C71_transpose and C71_single_precision are witnesses for what does not hold."
  },
  {
   "property": "C72",
   "status": "proved",
   "theorems": [
    "C72_position",
    "C72_tilt_change",
    "C72_update"
   ],
   "note": "Exact arithmetic; positions inside the input (others are moved to the border, C53)."
  },
  {
   "property": "C73",
   "status": "proved",
   "theorems": [
    "C73_noiseless",
    "C73_binning",
    "C73_binning_other",
    "C73_adu",
    "C73_grid",
    "C73_no_photon_noise",
    "C73_levels",
    "C73_emccd",
    "C73_unbiased"
   ],
   "note": "Restated with what the switches really do (levels, gain kept without photon noise, mean instead of sum in the binning); C73_binning_other is a witness that a size that is not a multiple of the binning is read with other blocks. Random generators are arbitrary functions."
  },
  {
   "property": "C74",
   "status": "proved",
   "theorems": [
    "C74_blocks",
    "C74_lenslets",
    "C74_map",
    "C74_partition",
    "C74_disjoint",
    "C74_succeeds",
    "C74_brightness",
    "C74_slopes",
    "C74_not_multiple"
   ],
   "note": "For image sides that are a multiple of the number of sub-apertures; C74_not_multiple has witnesses for other sizes (errors, shared pixels)."
  },
  {
   "property": "C75",
   "status": "proved",
   "theorems": [
    "C75_mask",
    "C75_mask_brightest",
    "C75_centre_moves",
    "C75_disc",
    "C75_geometric",
    "C75_lost_pixels",
    "C75_lost_misaligned",
    "C75_intensity",
    "C75_restores",
    "C75_image",
    "C75_display_map"
   ],
   "note": "Distances are compared by squares, π is any positive number and the obstruction ratio is any number (its detection is not modelled). C75_lost_misaligned is a witness of misaligned rows."
  },
  {
   "property": "C76",
   "status": "proved",
   "theorems": [
    "C76_resolution",
    "C76_resolution_found",
    "C76_choice",
    "C76_geometry",
    "C76_size_exact",
    "C76_size_near",
    "C76_size_short",
    "C76_short_geometry",
    "C76_short_fails",
    "C76_spots",
    "C76_no_crosstalk",
    "C76_flux",
    "C76_dark",
    "C76_distributed",
    "C76_distributed_same"
   ],
   "note": "Propagation through one lenslet is an arbitrary function of the field in its sub-aperture; geometry in exact arithmetic, with the truncation of the oversampled size also in floating point."
  },
  {
   "property": "C77",
   "status": "proved",
   "theorems": [
    "C77_fft",
    "C77_fov_too_large",
    "C77_detector",
    "C77_pupils",
    "C77_scale",
    "C77_scale_shrinks",
    "C77_smaller_pupils",
    "C77_sides",
    "C77_odd_pupil",
    "C77_steps_circular",
    "C77_steps_small",
    "C77_one_step",
    "C77_steps_too_few",
    "C77_steps_linear",
    "C77_linear_small",
    "C77_circle_radius",
    "C77_circle_centred",
    "C77_circle_quarter",
    "C77_circle_dense",
    "C77_line",
    "C77_line_centre",
    "C77_line_axis",
    "C77_weights",
    "C77_accumulate_same",
    "C77_accumulate_bounds",
    "C77_transmission",
    "C77_flux",
    "C77_flux_crop"
   ],
   "note": "Geometry in exact arithmetic with the roundings of the code; modulation on real numbers; propagation (FFTs), defects of edges and tip, and shift of the pupils not modelled."
  },
  {
   "property": "C78",
   "status": "proved",
   "theorems": [
    "C78_columns",
    "C78_rows",
    "C78_two_rows",
    "C78_psf_names",
    "C78_cube_names",
    "C78_modal_names",
    "C78_tenths",
    "C78_grid",
    "C78_modal_stale",
    "C78_history",
    "C78_forced",
    "C78_stale",
    "C78_minus",
    "C78_collision",
    "C78_psf",
    "C78_cube",
    "C78_modal",
    "C78_negative_angle"
   ],
   "note": "Data of each source are abstract; replay of the simulation is C26, downsampling checks are not modelled."
  },
  {
   "property": "C79",
   "status": "proved",
   "theorems": [
    "C79_round",
    "C79_square",
    "C79_symmetric",
    "C79_moved",
    "C79_hole",
    "C79_nested",
    "C79_default",
    "C79_on_pixel",
    "C79_circular",
    "C79_annular",
    "C79_where",
    "C79_spider_blocks",
    "C79_spider_only",
    "C79_inverse",
    "C79_area",
    "C79_ring_area"
   ],
   "note": "Exact arithmetic; spider and area on the real numbers."
  },
  {
   "property": "C80",
   "status": "proved",
   "theorems": [
    "C80_partition",
    "C80_pistons",
    "C80_special",
    "C80_sector",
    "C80_spider_inside",
    "C80_rotation",
    "C80_half_pixel",
    "C80_tilts",
    "C80_layout"
   ],
   "note": "Exact arithmetic on the real numbers; arctan2 is the argument of a complex number. Centroids of the petals (lines 130-136) not modelled."
  },
  {
   "property": "C81",
   "status": "proved",
   "theorems": [
    "C81_curvature",
    "C81_curvature_bound",
    "C81_curvature_exchange",
    "C81_curvature_brightness",
    "C81_curvature_dark",
    "C81_curvature_negative",
    "C81_pixels",
    "C81_pixels_wide",
    "C81_zernike",
    "C81_zernike_brightness",
    "C81_zernike_dark",
    "C81_roof",
    "C81_map",
    "C81_map_one",
    "C81_map_pixels_raises"
   ],
   "note": "Exact arithmetic. CiaoCiaoSlopec is not part of the model."
  },
  {
   "property": "C82",
   "status": "proved",
   "theorems": [
    "C82_layout",
    "C82_set",
    "C82_time",
    "C82_samples",
    "C82_range",
    "C82_late",
    "C82_early",
    "C82_single",
    "C82_same_grid",
    "C82_not_square",
    "C82_scale",
    "replace_iff",
    "C82_names"
   ],
   "note": "Exact arithmetic."
  },
  {
   "property": "C83",
   "status": "proved",
   "theorems": [
    "C83_light",
    "C83_mixture",
    "C83_factors",
    "C83_balanced",
    "C83_one",
    "C83_dark",
    "C83_contributions",
    "C83_tilt",
    "C83_no_tilt",
    "C83_refused"
   ],
   "note": "Exact arithmetic; the sensors of the single wavelengths are a parameter."
  },
  {
   "property": "C84",
   "status": "proved",
   "theorems": [
    "C84_nearest",
    "C84_sodium",
    "C84_maory",
    "C84_named",
    "C84_linear",
    "C84_magnitudes",
    "C84_fainter",
    "C84_background",
    "C84_density",
    "C84_table"
   ],
   "note": "Exact arithmetic, the power of ten is the real one."
  },
  {
   "property": "C85",
   "status": "proved",
   "theorems": [
    "C85_bands",
    "C85_reference",
    "C85_elements",
    "C85_dry",
    "C85_dispersion",
    "C85_humidity",
    "C85_pressure",
    "C85_pressure_jump",
    "C85_shifts",
    "C85_direction",
    "C85_no_shift",
    "C85_on_axis",
    "C85_off_axis",
    "shift_eq"
   ],
   "note": "Real numbers, exact arithmetic. Apart from its leading entry the contents of each table are data, not the subject of a theorem."
  },
  {
   "property": "C86",
   "status": "proved",
   "theorems": [
    "C86_waves",
    "C86_linear",
    "C86_frequencies",
    "C86_fresnel",
    "C86_odd",
    "C86_odd_shift",
    "C86_energy",
    "C86_light",
    "C86_identity",
    "C86_steps",
    "C86_reduction",
    "C86_band",
    "C86_stored",
    "C86_order",
    "C86_up",
    "C86_down"
   ],
   "note": "Exact arithmetic over the real and complex numbers; the FFTs are the discrete Fourier transforms they compute."
  },
  {
   "property": "C87",
   "status": "proved",
   "theorems": [
    "C87_power",
    "C87_quarter",
    "C87_variance",
    "C87_mean",
    "C87_spectrum",
    "C87_bound",
    "C87_axis",
    "C87_between",
    "C87_knots",
    "C87_given",
    "C87_modes",
    "C87_from_zero",
    "C87_seeds",
    "C87_refused",
    "C87_output"
   ],
   "note": "Exact arithmetic over the real and complex numbers; the random generator is a parameter."
  },
  {
   "property": "C88",
   "status": "proved",
   "theorems": [
    "C88_transmission",
    "C88_passive",
    "C88_clear",
    "C88_photons",
    "C88_lyot",
    "C88_lyot_empty",
    "C88_lyot_corner",
    "C88_knife",
    "C88_quadrants",
    "C88_null",
    "C88_null_axis",
    "C88_vortex",
    "C88_vortex_middle",
    "C88_vortex_opposite",
    "C88_phases",
    "C88_inner",
    "C88_filter",
    "C88_filter_off",
    "C88_app_zone",
    "C88_app_side",
    "C88_arguments",
    "C88_resampling"
   ],
   "note": "Exact arithmetic; the field on the grid of the coronagraph is given; the design of the apodizing phase is not modelled."
  },
  {
   "property": "C89",
   "status": "proved",
   "theorems": [
    "C89_axis",
    "C89_leakage",
    "C89_strehl",
    "C89_contrast",
    "C89_least",
    "C89_least_core",
    "C89_flat_core",
    "C89_flat_average",
    "C89_piston",
    "C89_waves",
    "C89_waves_core",
    "C89_off_axis",
    "C89_long_exposure"
   ],
   "note": "Exact arithmetic."
  },
  {
   "property": "C90",
   "status": "proved",
   "theorems": [
    "C90_disc",
    "C90_small_disc",
    "C90_total",
    "C90_polar",
    "C90_rings",
    "C90_one_ring",
    "C90_no_rings",
    "C90_given_rings",
    "C90_fwhm",
    "C90_gauss_rings",
    "C90_gauss",
    "C90_tilt",
    "C90_focus",
    "C90_no_focus",
    "C90_layers",
    "C90_threshold",
    "C90_weak",
    "C90_growing",
    "C90_batches"
   ],
   "note": "Exact arithmetic; sources from an image are not modelled."
  },
  {
   "property": "C91",
   "status": "proved",
   "theorems": [
    "C91_geometry",
    "C91_elongation",
    "C91_spot",
    "C91_subapertures",
    "C91_pixels",
    "C91_map",
    "C91_aim",
    "C91_unit_sum",
    "C91_order",
    "C91_indices",
    "C91_gaussian",
    "C91_scale",
    "C91_image",
    "C91_light",
    "C91_mirror",
    "C91_focus",
    "C91_files",
    "C91_sequence",
    "C91_not_transformed",
    "C91_failure_forgotten"
   ],
   "note": "Exact arithmetic; gaussian profile of the spot; names of files are any injective function of the items."
  },
  {
   "property": "C92",
   "status": "proved",
   "theorems": [
    "C92_slopes",
    "C92_tilt",
    "C92_piston",
    "C92_scale",
    "C92_outside",
    "C92_partly_flat",
    "C92_sum",
    "C92_curved",
    "C92_units",
    "C92_sequence",
    "C92_refused",
    "C92_not_additive",
    "C92_stale"
   ],
   "note": "Exact arithmetic, except for the rounding of the coefficients of the extrapolation, which is arbitrary where stated."
  },
  {
   "property": "C93",
   "status": "proved",
   "theorems": [
    "C93_run",
    "C93_regular",
    "C93_no_error",
    "C93_sensitivity",
    "C93_unperturbed",
    "C93_gains",
    "C93_carrier",
    "C93_truth",
    "C93_correction",
    "C93_orthogonal",
    "C93_overlap",
    "C93_forgetting",
    "C93_dark",
    "C93_iterations",
    "C93_converges",
    "C93_wrong_way",
    "C93_column",
    "C93_six_params",
    "C93_constructor"
   ],
   "note": "The interaction matrix for given parameters and the pseudo-inverse (first and third Penrose conditions) are given from outside; exact arithmetic. Convergence is proved for one mode and one parameter with a linear response."
  },
  {
   "property": "C94",
   "status": "proved",
   "theorems": [
    "C94_frame",
    "C94_edge",
    "C94_shift",
    "C94_derivative",
    "C94_derivative_image",
    "C94_noise",
    "C94_least_squares",
    "C94_first_order",
    "C94_step",
    "C94_phase",
    "C94_output",
    "C94_crop",
    "C94_crop_edge",
    "C94_fixed_point",
    "C94_fixed_point_full",
    "C94_tilt",
    "C94_start",
    "C94_tolerance",
    "C94_geometry",
    "C94_padding",
    "C94_reference"
   ],
   "note": "Exact arithmetic; invertibility of the normal matrix is a hypothesis. The number of iterations is arbitrary (the criterion to stop is modelled apart). Modes are given from outside; regions of different shapes are refused."
  },
  {
   "property": "C95",
   "status": "proved",
   "theorems": [
    "C95_interference",
    "C95_piston",
    "C95_photons",
    "C95_fringe_period",
    "C95_rotation",
    "C95_demod",
    "C95_recover",
    "C95_shift_even",
    "C95_shift_odd",
    "C95_odd_tilt",
    "C95_even",
    "C95_window",
    "C95_odd",
    "C95_even_any",
    "C95_fringes",
    "C95_bands",
    "C95_end_to_end",
    "C95_odd_fringes",
    "C95_error",
    "C95_gain",
    "C95_range",
    "C95_counts",
    "C95_ctor",
    "C95_amp",
    "C95_second",
    "C95_shared",
    "C95_flat"
   ],
   "note": "Exact arithmetic, square images. Not modelled: phase unwrapping, rotation and resizing of the mask of the slope computer (it is given)."
  },
  {
   "property": "C96",
   "status": "proved",
   "theorems": [
    "C96_res",
    "C96_focus",
    "C96_focus_even",
    "C96_odd",
    "C96_even",
    "C96_mirror",
    "C96_no_signal",
    "C96_sign",
    "C96_defocus",
    "C96_energy",
    "C96_photons",
    "C96_stop",
    "C96_cut",
    "C96_cut_large",
    "C96_shift",
    "C96_scale",
    "C96_scale_wrong",
    "C96_scale_same",
    "C96_cases"
   ],
   "note": "Exact arithmetic. The field is taken after the interpolation (C71, C72); the slope computer is that of C81."
  },
  {
   "property": "C97",
   "status": "proved",
   "theorems": [
    "focal_eq",
    "back_eq",
    "pupils_eq",
    "C97_faces",
    "C97_one_face",
    "C97_plain",
    "C97_energy",
    "C97_mirror",
    "C97_mirror_cols",
    "C97_transpose",
    "circle_cols",
    "circle_rows",
    "circle_diag",
    "line_symm",
    "C97_balance",
    "C97_stop",
    "C97_stop_symmetric",
    "C97_piston",
    "C97_tilt",
    "C97_modulation",
    "C97_wave"
   ],
   "note": "Exact arithmetic; FFT size equal to sampling plus padding (C77_sides). Defects of edges and tip are not modelled; the detector is that of C77."
  },
  {
   "property": "C98",
   "status": "proved",
   "theorems": [
    "C98_spot",
    "spot_split",
    "spot_pixel",
    "C98_interference",
    "C98_monotone",
    "C98_no_shift",
    "C98_spot_light",
    "C98_spot_symmetry",
    "C98_roof",
    "C98_combined",
    "C98_quadrant",
    "C98_roof_psf",
    "C98_roof_light",
    "C98_wave",
    "fpField_ident"
   ],
   "note": "Exact arithmetic, on top of C97. Defects of edges and tip are not modelled. The interference is stated at the points of the pupil and without a stop."
  },
  {
   "property": "C99",
   "status": "proved",
   "theorems": [
    "dynRun_eq",
    "C99_reset",
    "C99_gain",
    "C99_integrator",
    "C99_delay",
    "C99_zero_start",
    "C99_vector_raises",
    "C99_one_element",
    "modeRun_modulation",
    "modeRun_integrator",
    "modeRun_buf"
   ],
   "note": "Numbers are the elements of a field; inputs of the right size. An input that is not finite is a missing one."
  }
 ]
}