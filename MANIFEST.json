{
 "claims": [
  {
   "property": "C01",
   "status": "proved",
   "theorems": [
    "Verif.Utils.C01_sph2cart_cart2sph",
    "Verif.Utils.C01_ranges",
    "Verif.Utils.C01_cart2sph_sph2cart",
    "Verif.Utils.C01_steady",
    "Verif.Utils.C01_dir2cart_cart2dir",
    "Verif.Utils.C01_matlab"
   ],
   "note": ""
  },
  {
   "property": "C02",
   "status": "proved",
   "theorems": [
    "Verif.Utils.C02_ranges",
    "Verif.Utils.C02_periodic",
    "Verif.Utils.C02_inverse",
    "Verif.Utils.C02_inverse_mod",
    "Verif.Utils.C02_value"
   ],
   "note": ""
  },
  {
   "property": "C03",
   "status": "proved",
   "theorems": [
    "Verif.Utils.C03_haversine_eq_angle",
    "Verif.Utils.C03_haversine_eq_angleBetween",
    "Verif.Utils.C03_metric"
   ],
   "note": ""
  },
  {
   "property": "C04",
   "status": "proved",
   "theorems": [
    "Verif.Utils.C04_isRotation",
    "Verif.Utils.C04_dot",
    "Verif.Utils.C04_axes"
   ],
   "note": ""
  },
  {
   "property": "C05",
   "status": "proved",
   "theorems": [
    "Verif.Utils.C05_rotation",
    "Verif.Utils.C05_below_threshold",
    "Verif.Utils.C05_negative_angle_not_inverse",
    "Verif.Utils.C05_reject"
   ],
   "note": "proved as stated: rotation law above the threshold, identity at or below it, and the negation of R(k,-t)=R(k,t)^-1"
  },
  {
   "property": "C06",
   "status": "proved",
   "theorems": [
    "Verif.Utils.C06_error_iff",
    "Verif.Utils.C06_maps",
    "Verif.Utils.C06_gap"
   ],
   "note": "error iff cross product norm < 10e-15; between the error threshold and angle 10e-10 the identity is returned (C06_gap)"
  },
  {
   "property": "C07",
   "status": "proved",
   "theorems": [
    "Verif.Utils.C07_fromDb_db",
    "Verif.Utils.C07_db_fromDb",
    "Verif.Utils.C07_laws"
   ],
   "note": ""
  },
  {
   "property": "C08",
   "status": "proved",
   "theorems": [
    "Verif.Utils.C08_rows",
    "Verif.Utils.C08_lossless",
    "Verif.Utils.C08_errors"
   ],
   "note": ""
  },
  {
   "property": "C09",
   "status": "proved",
   "theorems": [
    "Verif.Utils.C09_accepts_iff",
    "Verif.Utils.C09_result"
   ],
   "note": ""
  },
  {
   "property": "C10",
   "status": "proved",
   "theorems": [
    "Verif.Sph.C10_repeatPerOrder",
    "Verif.Sph.C10_shMatrix_columns",
    "Verif.Sph.C10_shMatrix_columns_complex",
    "Verif.Sph.C10_prefix",
    "Verif.Sph.C10_shRow_vector",
    "Verif.Sph.C10_repeatPerOrder_vector",
    "Verif.Sph.C10_shMatrix_result"
   ],
   "note": ""
  },
  {
   "property": "C11",
   "status": "proved",
   "theorems": [
    "Verif.Sph.C11_order_iff",
    "Verif.Sph.C11_order_square",
    "Verif.Sph.C11_order_surplus"
   ],
   "note": ""
  },
  {
   "property": "C12",
   "status": "proved",
   "theorems": [
    "Verif.Sph.C12_scaling",
    "Verif.Sph.C12_scaling_axis1",
    "Verif.Sph.C12_omni",
    "Verif.Sph.C12_inverse",
    "Verif.Sph.C12_no_square"
   ],
   "note": ""
  },
  {
   "property": "C13",
   "status": "proved",
   "theorems": [
    "Verif.Sph.C13_channels",
    "Verif.Sph.C13_round_trip",
    "Verif.Sph.C13_errors"
   ],
   "note": ""
  },
  {
   "property": "C14",
   "status": "proved",
   "theorems": [
    "Verif.Sph.C14_b_encoding"
   ],
   "note": ""
  },
  {
   "property": "C15",
   "status": "proved",
   "theorems": [
    "Verif.Sph.C15_soundfield",
    "Verif.Sph.C15_solid"
   ],
   "note": ""
  },
  {
   "property": "C16",
   "status": "proved",
   "theorems": [
    "Verif.Sph.C16_steering_meaning",
    "Verif.Sph.C16_unityGain",
    "Verif.Sph.C16_unityGain_idem_scale",
    "Verif.Sph.C16_hypercardioid",
    "Verif.Sph.C16_cardioid",
    "Verif.Sph.C16_maxre",
    "Verif.Sph.C16_butterworth",
    "Verif.Sph.C16_no_compensation"
   ],
   "note": ""
  },
  {
   "property": "C17",
   "status": "proved",
   "theorems": [
    "Verif.Sph.C17_cardioid",
    "Verif.Sph.C17_in_phase"
   ],
   "note": ""
  },
  {
   "property": "C18",
   "status": "proved",
   "theorems": [
    "Verif.Sph.C18_addition",
    "Verif.Sph.C18_kernel",
    "Verif.Sph.C18_kernel_default",
    "Verif.Sph.C18_weights",
    "Verif.Sph.C18_row_norm"
   ],
   "note": ""
  },
  {
   "property": "C19",
   "status": "proved",
   "theorems": [
    "Verif.Sph.C19_rotation",
    "Verif.Sph.C19_rotation_vec2dir",
    "Verif.Sph.C19_rotateSh"
   ],
   "note": ""
  },
  {
   "property": "C20",
   "status": "proved",
   "theorems": [
    "Verif.Sph.C20_orthogonal",
    "Verif.Sph.C20_blocks",
    "Verif.Sph.C20_energy_per_order",
    "Verif.Sph.C20_identity"
   ],
   "note": ""
  },
  {
   "property": "C21",
   "status": "partial",
   "theorems": [
    "Verif.Sph.C21_defined_partial",
    "Verif.Sph.C21_order_zero_raises",
    "Verif.Sph.C21_rotateSh_order_zero_raises",
    "Verif.Sph.C21_rotateSh_channels"
   ],
   "note": "false of the code at order 0 (C21_order_zero_raises, C21_rotateSh_order_zero_raises prove the ValueError); everything else in the statement is proved for all N >= 1, all types and all channel counts >= 2"
  },
  {
   "property": "C22",
   "status": "proved",
   "theorems": [
    "Verif.Props.C22_equal_angle",
    "Verif.Props.C22_gauss"
   ],
   "note": ""
  },
  {
   "property": "C23",
   "status": "proved",
   "theorems": [
    "Verif.Props.C23_recover",
    "Verif.Props.C23_min_norm"
   ],
   "note": ""
  },
  {
   "property": "C24",
   "status": "proved",
   "theorems": [
    "Verif.Props.C24_perfect",
    "Verif.Props.C24_pinv",
    "Verif.Props.C24_energy_common",
    "Verif.Props.C24_energy",
    "Verif.Props.C24_other"
   ],
   "note": ""
  },
  {
   "property": "C25",
   "status": "proved",
   "theorems": [
    "Verif.Props.C25_product",
    "Verif.Props.C25_errors"
   ],
   "note": ""
  },
  {
   "property": "C26",
   "status": "proved",
   "theorems": [
    "Verif.Props.C26_le_one",
    "Verif.Props.C26_single",
    "Verif.Props.C26_zero",
    "Verif.Props.C26_scale",
    "Verif.Props.C26_value",
    "Verif.Props.C26_sizes"
   ],
   "note": ""
  },
  {
   "property": "C27",
   "status": "proved",
   "theorems": [
    "Verif.Props.C27_equal_angle",
    "Verif.Props.C27_gauss",
    "Verif.Props.C27_equal_polar_angle"
   ],
   "note": ""
  },
  {
   "property": "C28",
   "status": "proved",
   "theorems": [
    "Verif.Props.C28_n_design",
    "Verif.Props.C28_lebedev",
    "Verif.Props.C28_maxDet",
    "Verif.Props.C28_t_design",
    "Verif.Props.C28_fliege_maier"
   ],
   "note": ""
  },
  {
   "property": "C29",
   "status": "proved",
   "theorems": [
    "Verif.Props.C29_vbap"
   ],
   "note": ""
  },
  {
   "property": "C30",
   "status": "proved",
   "theorems": [
    "Verif.Props.C30_each",
    "Verif.Props.C30_first",
    "Verif.Props.C30_cone",
    "Verif.Props.C30_scale"
   ],
   "note": ""
  },
  {
   "property": "C31",
   "status": "proved",
   "theorems": [
    "Verif.Props.C31_schedule_independent",
    "Verif.Props.C31_bad_jobs"
   ],
   "note": ""
  },
  {
   "property": "C32",
   "status": "partial",
   "theorems": [
    "Verif.Props.C32_stale",
    "Verif.Props.C32_first_call_partial",
    "Verif.Props.C32_vbap_partial"
   ],
   "note": "False of the code: C32_stale exhibits a history (vbap, pop_triangles, vbap) whose gains differ from a fresh setup. Proved for all histories in which pop_triangles does not follow vbap (C32_vbap_partial) and, for every history, which inverses are used (C32_first_call_partial)."
  },
  {
   "property": "C33",
   "status": "partial",
   "theorems": [
    "Verif.Props.C33_stored",
    "Verif.Props.C33_value",
    "Verif.Props.C33_stale",
    "Verif.Props.C33_layout_partial",
    "Verif.Props.C33_unit_partial"
   ],
   "note": "False of the code: C33_stale exhibits a setup whose order is 2 before and 1 after a vbap call (stored inverses are reused). Proved without stored inverses, and for unit-sphere layouts with the default simplices."
  },
  {
   "property": "C34",
   "status": "proved",
   "theorems": [
    "Verif.Props.C34_row",
    "Verif.Props.C34_vbip"
   ],
   "note": ""
  },
  {
   "property": "C35",
   "status": "proved",
   "theorems": [
    "Verif.Props.C35_survive",
    "Verif.Props.C35_sublist",
    "Verif.Props.C35_idempotent"
   ],
   "note": ""
  },
  {
   "property": "C36",
   "status": "proved",
   "theorems": [
    "Verif.Props.C36_monotone",
    "Verif.Props.C36_wrap"
   ],
   "note": ""
  },
  {
   "property": "C37",
   "status": "proved",
   "theorems": [
    "Verif.Props.C37_sort",
    "Verif.Props.C37_valid"
   ],
   "note": ""
  },
  {
   "property": "C38",
   "status": "proved",
   "theorems": [
    "Verif.Props.C38_area_value",
    "Verif.Props.C38_centres",
    "Verif.Props.C38_area",
    "Verif.Props.C38_normal",
    "Verif.Props.C38_orientation",
    "Verif.Props.C38_coplanar"
   ],
   "note": ""
  },
  {
   "property": "C39",
   "status": "partial",
   "theorems": [
    "Verif.Props.C39_sequences_partial",
    "Verif.Props.C39_no_listener_partial",
    "Verif.Props.C39_effect",
    "Verif.Props.C39_modified",
    "Verif.Props.C39_shared",
    "Verif.Props.C39_listener_short",
    "Verif.Props.C39_from_sph",
    "Verif.Props.C39_points",
    "Verif.Props.C39_from_sph_points"
   ],
   "note": "False of the code: C39_modified and C39_shared show caller arrays changed in place when numpy arrays and a listener position are passed (C39_effect gives the exact effect). Proved for sequences, without listener position, and for from_sph."
  },
  {
   "property": "C40",
   "status": "proved",
   "theorems": [
    "Verif.Props.C40_setup",
    "Verif.Props.C40_guard",
    "Verif.Props.C40_history",
    "Verif.Props.C40_order"
   ],
   "note": ""
  },
  {
   "property": "C41",
   "status": "proved",
   "theorems": [
    "Verif.Props.C41_allrad_allrap",
    "Verif.Props.C41_linear",
    "Verif.Props.C41_reject",
    "Verif.Props.C41_imaginary"
   ],
   "note": ""
  },
  {
   "property": "C42",
   "status": "proved",
   "theorems": [
    "Verif.Props.C42_energy",
    "Verif.Props.C42_plane_wave",
    "Verif.Props.C42_reject"
   ],
   "note": ""
  },
  {
   "property": "C43",
   "status": "proved",
   "theorems": [
    "Verif.Props.C43_mad",
    "Verif.Props.C43_sad",
    "Verif.Props.C43_sad_eq_mad",
    "Verif.Props.C43_truncates",
    "Verif.Props.C43_reject",
    "Verif.Props.C43_default_order"
   ],
   "note": ""
  },
  {
   "property": "C44",
   "status": "proved",
   "theorems": [
    "Verif.Props.C44_nearest",
    "Verif.Props.C44_scale"
   ],
   "note": ""
  },
  {
   "property": "C45",
   "status": "partial",
   "theorems": [
    "Verif.Decoder.C45_convolution_partial",
    "Verif.Decoder.C45_linear_partial",
    "Verif.Decoder.C45_reject",
    "Verif.Decoder.C45_order_zero_fails",
    "Verif.Decoder.C45_one_tap_fails"
   ],
   "note": "Proved for two or more channels and taps; order 0 and one-tap filters raise ValueError because of np.squeeze (C45_order_zero_fails, C45_one_tap_fails)."
  },
  {
   "property": "C46",
   "status": "proved",
   "theorems": [
    "Verif.Decoder.C46_loudspeaker_signals",
    "Verif.Decoder.C46_reject",
    "Verif.Decoder.C46_broadcast",
    "Verif.Decoder.C46_binauralize",
    "Verif.Decoder.C46_binauralize_reject"
   ],
   "note": ""
  },
  {
   "property": "C47",
   "status": "proved",
   "theorems": [
    "Verif.Sig.C47_trim",
    "Verif.Sig.C47_negative_start",
    "Verif.Sig.C47_reject",
    "Verif.Sig.C47_no_end",
    "Verif.Sig.C47_dur",
    "Verif.Sig.C47_sequence",
    "Verif.Sig.C47_compose",
    "Verif.Sig.C47_multi"
   ],
   "note": ""
  },
  {
   "property": "C48",
   "status": "partial",
   "theorems": [
    "Verif.Sig.C48_history_partial",
    "Verif.Sig.C48_conv_fails",
    "Verif.Sig.C48_resample_mono_fails",
    "Verif.Sig.C48_resample_errors"
   ],
   "note": "False in general: conv with too few impulse responses and resample of a single channel break it (C48_conv_fails, C48_resample_mono_fails). Proved for every history with fitting arguments and two or more channels."
  },
  {
   "property": "C49",
   "status": "partial",
   "theorems": [
    "Verif.Sig.C49_init_partial",
    "Verif.Sig.C49_resample_partial",
    "Verif.Sig.C49_frozen",
    "Verif.Sig.C49_resample_history_partial",
    "Verif.Sig.C49_trim_fails",
    "Verif.Sig.C49_ambeo_fails"
   ],
   "note": "False after trim, conv, apply and ambeo_a2b with filters: the attributes are snapshots (C49_trim_fails, C49_ambeo_fails, C49_frozen). Proved after construction and resample."
  },
  {
   "property": "C50",
   "status": "proved",
   "theorems": [
    "Verif.SigHeap.C50_copy_independent",
    "Verif.SigHeap.C50_write",
    "Verif.SigHeap.C50_trim_audio",
    "Verif.SigHeap.C50_reject",
    "Verif.SigHeap.C50_values"
   ],
   "note": ""
  },
  {
   "property": "C51",
   "status": "proved",
   "theorems": [
    "Verif.Sig.C51_scalar",
    "Verif.Sig.C51_array",
    "Verif.Sig.C51_rows",
    "Verif.Sig.C51_on_grid",
    "Verif.Sig.C51_reject"
   ],
   "note": ""
  },
  {
   "property": "C52",
   "status": "partial",
   "theorems": [
    "Verif.Sig.C52_init_partial",
    "Verif.Sig.C52_reject",
    "Verif.Sig.C52_constructor_fails",
    "Verif.Sig.C52_history_partial",
    "Verif.Sig.C52_equalise",
    "Verif.Sig.C52_equalise_half"
   ],
   "note": "The constructor accepts different tap counts for the ears (C52_constructor_fails). Proved for every history when the ears are given with equally many taps. With different tap counts a rejected apply_ctf_eq can leave only the left ear equalised (C52_equalise_half)."
  },
  {
   "property": "C53",
   "status": "proved",
   "theorems": [
    "Verif.Props.C53_interpolates",
    "Verif.Props.C53_sum",
    "Verif.Props.C53_impulse",
    "Verif.Props.C53_unique"
   ],
   "note": ""
  },
  {
   "property": "C54",
   "status": "proved",
   "theorems": [
    "Verif.Props.C54_terminates",
    "Verif.Props.C54_energy",
    "Verif.Props.C54_amplitude",
    "Verif.Props.C54_reject",
    "Verif.Props.C54_negative_overlap_fails",
    "Verif.Props.C54_ok_iff",
    "Verif.Props.C54_fits",
    "Verif.Props.C54_top_fails"
   ],
   "note": "Proved for every band count and overlap in [0, 0.5]; negative overlaps leave gaps (C54_negative_overlap_fails)."
  },
  {
   "property": "C55",
   "status": "proved",
   "theorems": [
    "Verif.Props.C55_unchanged",
    "Verif.Props.C55_clipped",
    "Verif.Props.C55_bound",
    "Verif.Props.C55_strictMono",
    "Verif.Props.C55_limit_sharp"
   ],
   "note": ""
  },
  {
   "property": "C56",
   "status": "proved",
   "theorems": [
    "Verif.Props.C56_match",
    "Verif.Props.C56_reject"
   ],
   "note": ""
  },
  {
   "property": "C57",
   "status": "partial",
   "theorems": [
    "Verif.Props.C57_window",
    "Verif.Props.C57_length",
    "Verif.Props.C57_between",
    "Verif.Props.C57_const",
    "Verif.Props.C57_linear_partial",
    "Verif.Props.C57_integer_fails",
    "Verif.Props.C57_mean"
   ],
   "note": "Proved for floating point input; for integer arrays the result is truncated to integers, so linearity fails (C57_integer_fails)."
  },
  {
   "property": "C58",
   "status": "partial",
   "theorems": [
    "Verif.Props.C58_decreasing_partial",
    "Verif.Props.C58_first_value",
    "Verif.Props.C58_remaining",
    "Verif.Props.C58_first_value_fails"
   ],
   "note": "False at the first value: the normaliser is the trapezoidal rule while the curve is a plain sum (C58_first_value gives the exact value, C58_first_value_fails a witness). The decay is proved whenever the normaliser is positive."
  },
  {
   "property": "C59",
   "status": "proved",
   "theorems": [
    "Verif.Props.C59_range",
    "Verif.Props.C59_shape",
    "Verif.Props.C59_tail",
    "Verif.Props.C59_reject"
   ],
   "note": ""
  },
  {
   "property": "C60",
   "status": "partial",
   "theorems": [
    "Verif.Props.C60_train_partial",
    "Verif.Props.C60_pause_fails",
    "Verif.Props.C60_pink_odd_fails",
    "Verif.Props.C60_no_fade_fails",
    "Verif.Props.C60_pink_short_fails",
    "Verif.Props.C60_fade",
    "Verif.Props.C60_normalized"
   ],
   "note": "False when t_pause differs from t_noise (the pause has the length of the noise), for pink noise with odd lengths and without fade (C60_pause_fails, C60_pink_odd_fails, C60_no_fade_fails). Proved for the remaining parameters, up to the common normalisation (C60_normalized)."
  },
  {
   "property": "C61",
   "status": "proved",
   "theorems": [
    "Verif.Props.C61_jobs",
    "Verif.Props.C61_no_jobs"
   ],
   "note": ""
  },
  {
   "property": "C62",
   "status": "proved",
   "theorems": [
    "Verif.Props.C62_schedule",
    "Verif.Props.C62_completes",
    "Verif.Props.C62_no_jobs",
    "Verif.Props.C62_convolution",
    "Verif.Props.C62_own_locks_fail"
   ],
   "note": "Proved for every worker count and interleaving when the workers share one lock; with a lock per worker updates can be lost (C62_own_locks_fail)."
  },
  {
   "property": "C63",
   "status": "partial",
   "theorems": [
    "Verif.Props.C63_schedule",
    "Verif.Props.C63_values_partial",
    "Verif.Props.C63_last_fails",
    "Verif.Props.C63_reject"
   ],
   "note": "The window ending exactly on the last sample is left out by the loop bound (C63_last_fails). Everything else is proved for every worker count, store order, odd window length and signal length."
  },
  {
   "property": "C64",
   "status": "proved",
   "theorems": [
    "Verif.Props.C64_sum",
    "Verif.Props.C64_accepts",
    "Verif.Props.C64_reject",
    "Verif.Props.C64_split",
    "Verif.Props.C64_zero",
    "Verif.Props.C64_default"
   ],
   "note": ""
  },
  {
   "property": "C65",
   "status": "proved",
   "theorems": [
    "Verif.Props.C65_range",
    "Verif.Props.C65_reject",
    "Verif.Props.C65_zero",
    "Verif.Props.C65_jump",
    "Verif.Props.C65_no_jump"
   ],
   "note": ""
  },
  {
   "property": "C66",
   "status": "proved",
   "theorems": [
    "Verif.Props.C66_mvdr",
    "Verif.Props.C66_reject"
   ],
   "note": ""
  },
  {
   "property": "C67",
   "status": "proved",
   "theorems": [
    "Verif.Props.C67_lcmv",
    "Verif.Props.C67_dependent",
    "Verif.Props.C67_reject"
   ],
   "note": ""
  },
  {
   "property": "C68",
   "status": "proved",
   "theorems": [
    "Verif.Props.C68_plane_wave",
    "Verif.Props.C68_on_axis",
    "Verif.Props.C68_reject"
   ],
   "note": ""
  },
  {
   "property": "C69",
   "status": "partial",
   "theorems": [
    "Verif.Props.C69_bounds",
    "Verif.Props.C69_value",
    "Verif.Props.C69_maximum_partial",
    "Verif.Props.C69_zero_sources_fails",
    "Verif.Props.C69_reject"
   ],
   "note": "Proved for one or more sources; with num_src = 0 the slice [:-0] is empty and every direction attains the maximum (C69_zero_sources_fails)."
  },
  {
   "property": "C70",
   "status": "proved",
   "theorems": [
    "Verif.Props.C70_stereo",
    "Verif.Props.C70_missing_directions"
   ],
   "note": ""
  },
  {
   "property": "C71",
   "status": "partial",
   "theorems": [
    "Verif.Props.C71_rates_fail",
    "Verif.Props.C71_rates",
    "Verif.Props.C71_shape",
    "Verif.Props.C71_windows",
    "Verif.Props.C71_unit_gains",
    "Verif.Props.C71_impulse"
   ],
   "note": "False at some sampling rates: at 22050, 96000 and 192000 Hz the function raises AssertionError on every input (C71_rates_fail). Proved whenever the number of filter taps is odd, in particular at 44100 and 48000 Hz (C71_rates): slices, windows, unit gains and shape."
  },
  {
   "property": "C72",
   "status": "partial",
   "theorems": [
    "Verif.Props.C72_shape",
    "Verif.Props.C72_order_one_partial",
    "Verif.Props.C72_order_zero",
    "Verif.Props.C72_reject",
    "Verif.Props.C72_fails"
   ],
   "note": "False of the code for every smoothing order of two or more: the unsmoothed gains are applied (C72_fails); orders below one raise IndexError (C72_order_zero). Proved for order one."
  },
  {
   "property": "C73",
   "status": "partial",
   "theorems": [
    "Verif.Props.C73_head_partial",
    "Verif.Props.C73_tail_fails",
    "Verif.Props.C73_spurious",
    "Verif.Props.C73_head2_partial",
    "Verif.Props.C73_tail2_fails"
   ],
   "note": "False of the code: the check for the end inspects the first returned column, so cut-off signal at the end goes unreported (C73_tail_fails, C73_tail2_fails) and a warning may be spurious (C73_spurious). Proved for the beginning."
  },
  {
   "property": "C74",
   "status": "partial",
   "theorems": [
    "Verif.Props.C74_ignored",
    "Verif.Props.C74_fails",
    "Verif.Props.C74_rate_partial"
   ],
   "note": "False of the code: the check compares against the module instead of the class and is never reached, so the file is written with the fs argument (C74_ignored, C74_fails). Proved: without contradiction the file has the signal's own rate (C74_rate_partial)."
  },
  {
   "property": "C75",
   "status": "proved",
   "theorems": [
    "Verif.Props.C75_channels",
    "Verif.Props.C75_rates",
    "Verif.Props.C75_requested",
    "Verif.Props.C75_missing"
   ],
   "note": ""
  },
  {
   "property": "C76",
   "status": "partial",
   "theorems": [
    "Verif.Props.C76_halfway",
    "Verif.Props.C76_gain_partial",
    "Verif.Props.C76_gain_fails",
    "Verif.Props.C76_missing",
    "Verif.Props.C76_roundtrip",
    "Verif.Props.C76_unprepared",
    "Verif.Props.C76_integer_gains_fail"
   ],
   "note": "False of the code in two ways: an imaginary loudspeaker preceding a real one shifts the gains (C76_gain_fails), and a layout loaded from a file with integer gains cannot be saved (TypeError, C76_integer_gains_fail). Proved: gains when imaginary loudspeakers come last (C76_gain_partial), missing keys (C76_missing), and the round trip save/load with explicit error bounds for setups with float gains (C76_roundtrip)."
  },
  {
   "property": "C77",
   "status": "proved",
   "theorems": [
    "Verif.Props.C77_name",
    "Verif.Props.C77_loudspeaker",
    "Verif.Props.C77_rate",
    "Verif.Props.C77_no_jobs_fails",
    "Verif.Props.C77_sdm"
   ],
   "note": "Given HRIRs that form a consistent non-empty set and at least one sample. With jobs_count below one a silent file is written (C77_no_jobs_fails), outside the statement."
  },
  {
   "property": "C78",
   "status": "partial",
   "theorems": [
    "Verif.Props.C78_dummy",
    "Verif.Props.C78_rates_partial",
    "Verif.Props.C78_high_rate_fails",
    "Verif.Props.C78_fs",
    "Verif.Props.C78_default_rates",
    "Verif.Props.C78_default_errors",
    "Verif.Props.C78_default"
   ],
   "note": "False of the code from 402 kHz on, where an impulse falls outside the 256 taps and IndexError is raised (C78_high_rate_fails). Proved for all rates below 328 kHz (C78_dummy with C78_rates_partial), and between the two whenever the grid's extreme delays fit (C78_dummy); the offered default rates and the returned fs for all rates."
  },
  {
   "property": "C79",
   "status": "proved",
   "theorems": [
    "Verif.Props.C79_orthonormal",
    "Verif.Props.C79_polynomials"
   ],
   "note": ""
  },
  {
   "property": "C80",
   "status": "proved",
   "theorems": [
    "Verif.Props.C80_equal_angle",
    "Verif.Props.C80_gauss"
   ],
   "note": ""
  },
  {
   "property": "C81",
   "status": "proved",
   "theorems": [
    "Verif.Props.C81_contiguous",
    "Verif.Props.C81_inside",
    "Verif.Props.C81_low_fails"
   ],
   "note": "The centre of the first band is outside it when the lowest edge is below 1 Hz (C81_low_fails), hence the proviso in the statement."
  },
  {
   "property": "C82",
   "status": "proved",
   "theorems": [
    "Verif.Props.C82_mono",
    "Verif.Props.C82_multi",
    "Verif.Props.C82_ambi",
    "Verif.Props.C82_warnings",
    "Verif.Props.C82_mono_warnings",
    "Verif.Props.C82_single",
    "Verif.Props.C82_array",
    "Verif.Props.C82_reject"
   ],
   "note": ""
  },
  {
   "property": "C83",
   "status": "partial",
   "theorems": [
    "Verif.Props.C83_partial",
    "Verif.Props.C83_imaginary_fails"
   ],
   "note": "False of the code: imaginary loudspeakers are not moved (C83_imaginary_fails). Proved for real loudspeakers, and for all of them without listener position (C83_partial)."
  },
  {
   "property": "C84",
   "status": "proved",
   "theorems": [
    "Verif.Props.C84_exact",
    "Verif.Props.C84_design",
    "Verif.Props.C84_errors"
   ],
   "note": ""
  },
  {
   "property": "C85",
   "status": "proved",
   "theorems": [
    "Verif.Props.C85_value",
    "Verif.Props.C85_swap",
    "Verif.Props.C85_gain",
    "Verif.Props.C85_silent"
   ],
   "note": ""
  },
  {
   "property": "C86",
   "status": "proved",
   "theorems": [
    "Verif.Props.C86_delay",
    "Verif.Props.C86_swap",
    "Verif.Props.C86_bound",
    "Verif.Props.C86_silent"
   ],
   "note": ""
  },
  {
   "property": "C87",
   "status": "proved",
   "theorems": [
    "Verif.Props.C87_sectors",
    "Verif.Props.C87_high_order"
   ],
   "note": ""
  },
  {
   "property": "C88",
   "status": "proved",
   "theorems": [
    "Verif.Props.C88_rigid",
    "Verif.Props.C88_open",
    "Verif.Props.C88_value",
    "Verif.Props.C88_gain",
    "Verif.Props.C88_errors"
   ],
   "note": ""
  },
  {
   "property": "C89",
   "status": "proved",
   "theorems": [
    "Verif.Props.C89_unwrap",
    "Verif.Props.C89_delay",
    "Verif.Props.C89_gain",
    "Verif.Props.C89_swap",
    "Verif.Props.C89_fit",
    "Verif.Props.C89_magnitude",
    "Verif.Props.C89_errors"
   ],
   "note": ""
  },
  {
   "property": "C90",
   "status": "proved",
   "theorems": [
    "Verif.Props.C90_gain",
    "Verif.Props.C90_swap",
    "Verif.Props.C90_reorder",
    "Verif.Props.C90_inverse",
    "Verif.Props.C90_flat",
    "Verif.Props.C90_errors",
    "Verif.Props.C90_default"
   ],
   "note": ""
  },
  {
   "property": "C91",
   "status": "proved",
   "theorems": [
    "Verif.Props.C91_load",
    "Verif.Props.C91_errors",
    "Verif.Props.C91_no_directions",
    "Verif.Props.C91_sh_fit",
    "Verif.Props.C91_sh_exact"
   ],
   "note": ""
  },
  {
   "property": "C92",
   "status": "proved",
   "theorems": [
    "Verif.Props.C92_load",
    "Verif.Props.C92_no_nan",
    "Verif.Props.C92_errors",
    "Verif.Props.C92_rates"
   ],
   "note": ""
  },
  {
   "property": "C93",
   "status": "proved",
   "theorems": [
    "Verif.Props.C93_equal_angle",
    "Verif.Props.C93_gauss",
    "Verif.Props.C93_design",
    "Verif.Props.C93_addition",
    "Verif.Props.C93_symmetry",
    "Verif.Props.C93_same_function",
    "Verif.Props.C93_matrix",
    "Verif.Props.C93_lstsq"
   ],
   "note": ""
  },
  {
   "property": "C94",
   "status": "proved",
   "theorems": [
    "Verif.Props.C94_load",
    "Verif.Props.C94_coefficients",
    "Verif.Props.C94_source_rate",
    "Verif.Props.C94_errors"
   ],
   "note": ""
  },
  {
   "property": "C95",
   "status": "partial",
   "theorems": [
    "Verif.Props.C95_spectrum",
    "Verif.Props.C95_same_rate_partial",
    "Verif.Props.C95_odd_fails",
    "Verif.Props.C95_single"
   ],
   "note": "False of the code for signals with an odd number of samples (C95_odd_fails: the last bin loses its imaginary part). Proved for even lengths, where the first and last bin of a real signal are real."
  },
  {
   "property": "C96",
   "status": "proved",
   "theorems": [
    "Verif.Props.C96_scale",
    "Verif.Props.C96_power",
    "Verif.Props.C96_value",
    "Verif.Props.C96_flat",
    "Verif.Props.C96_energy"
   ],
   "note": ""
  },
  {
   "property": "C97",
   "status": "proved",
   "theorems": [
    "Verif.Props.C97_never_amplifies",
    "Verif.Props.C97_panned"
   ],
   "note": ""
  },
  {
   "property": "C98",
   "status": "partial",
   "theorems": [
    "Verif.Props.C98_ball",
    "Verif.Props.C98_central_partial",
    "Verif.Props.C98_inside_fails",
    "Verif.Props.C98_outside_fails"
   ],
   "note": "false of the code in both directions: C98_inside_fails (a listener inside a long layout loses all faces in front) and C98_outside_fails; C98_ball characterises the check exactly, C98_central_partial gives the part that holds"
  },
  {
   "property": "C99",
   "status": "proved",
   "theorems": [
    "Verif.Props.C99_outward",
    "Verif.Props.C99_inner"
   ],
   "note": ""
  },
  {
   "property": "C100",
   "status": "proved",
   "theorems": [
    "Verif.Props.C100_plain",
    "Verif.Props.C100_equalised",
    "Verif.Props.C100_reject"
   ],
   "note": ""
  },
  {
   "property": "C101",
   "status": "proved",
   "theorems": [
    "Verif.Props.C101_load",
    "Verif.Props.C101_reject",
    "Verif.Props.C101_mono",
    "Verif.Props.C101_multi",
    "Verif.Props.C101_ambi"
   ],
   "note": ""
  },
  {
   "property": "C102",
   "status": "proved",
   "theorems": [
    "Verif.Props.C102_energy",
    "Verif.Props.C102_not_unit"
   ],
   "note": "The documented energy preservation (energy one) is missed by the code: C102_not_unit shows the energy lies in [1/2, 1) because decoder.py line 891 uses 2(n+1) instead of 2n+1. Proved: the energy is the same for every direction (C102_energy)."
  },
  {
   "property": "C103",
   "status": "partial",
   "theorems": [
    "Verif.Props.C103_errors",
    "Verif.Props.C103_position",
    "Verif.Props.C103_hole_partial",
    "Verif.Props.C103_two_rims_fails",
    "Verif.Props.C103_direction_fails"
   ],
   "note": "False of the code in two ways: two separate rims are not refused (C103_two_rims_fails), and the normals are weighted with the area twice (C103_direction_fails). Proved: the exact condition under which an error is raised (C103_errors), distance and direction of the position in general (C103_position), and the direction out of the hole when the weighted normals of the complete hull add up to zero (C103_hole_partial)."
  },
  {
   "property": "C104",
   "status": "proved",
   "theorems": [
    "Verif.Props.C104_retain",
    "Verif.Props.C104_closed_hull",
    "Verif.Props.C104_energy",
    "Verif.Props.C104_reject"
   ],
   "note": ""
  },
  {
   "property": "C105",
   "status": "proved",
   "theorems": [
    "Verif.Sig.C105_mono",
    "Verif.Sig.C105_reject",
    "Verif.Sig.C105_multi"
   ],
   "note": ""
  },
  {
   "property": "C106",
   "status": "proved",
   "theorems": [
    "Verif.Sig.C106_samples",
    "Verif.Sig.C106_mirror",
    "Verif.Sig.C106_pan"
   ],
   "note": ""
  },
  {
   "property": "C107",
   "status": "partial",
   "theorems": [
    "Verif.Utils.C107_iff",
    "Verif.Utils.C107_joins",
    "Verif.Utils.C107_common_dimension_fails"
   ],
   "note": "False of the code: arrays with one common dimension are not stacked (C107_common_dimension_fails). Proved: the exact condition for success (C107_iff) and the result for equal shapes that are not square (C107_joins)."
  },
  {
   "property": "C108",
   "status": "proved",
   "theorems": [
    "Verif.Utils.C108_rms",
    "Verif.Utils.C108_level"
   ],
   "note": ""
  },
  {
   "property": "C109",
   "status": "proved",
   "theorems": [
    "Verif.Utils.C109_distance",
    "Verif.Utils.C109_sizes"
   ],
   "note": ""
  },
  {
   "property": "C110",
   "status": "proved",
   "theorems": [
    "Verif.Props.C110_direction",
    "Verif.Props.C110_optimal",
    "Verif.Props.C110_optimum_exists",
    "Verif.Props.C110_max",
    "Verif.Props.C110_maxre_weights"
   ],
   "note": ""
  },
  {
   "property": "C111",
   "status": "proved",
   "theorems": [
    "Verif.Props.C111_decreasing",
    "Verif.Props.C111_positive_iff"
   ],
   "note": "Weights that are positive for every order would be expected; C111_positive_iff shows the exact order up to which they are. The constant 137.9 degrees is slightly larger than the first zero of the Bessel function J0."
  },
  {
   "property": "C112",
   "status": "proved",
   "theorems": [
    "Verif.Props.C112_weighted",
    "Verif.Props.C112_basic",
    "Verif.Props.C112_rotated"
   ],
   "note": ""
  },
  {
   "property": "C113",
   "status": "proved",
   "theorems": [
    "Verif.Props.C113_direction",
    "Verif.Props.C113_projection"
   ],
   "note": ""
  },
  {
   "property": "C114",
   "status": "proved",
   "theorems": [
    "Verif.Props.C114_design",
    "Verif.Props.C114_range",
    "Verif.Props.C114_rotated",
    "Verif.Props.C114_error_bound"
   ],
   "note": ""
  },
  {
   "property": "C115",
   "status": "proved",
   "theorems": [
    "Verif.Props.C115_mono_index",
    "Verif.Props.C115_mono_slice",
    "Verif.Props.C115_multi_index",
    "Verif.Props.C115_hrirs_index",
    "Verif.Props.C115_construct",
    "Verif.Props.C115_construct_errors",
    "Verif.Props.C115_signal",
    "Verif.Props.C115_resample",
    "Verif.Props.C115_sh_to_b",
    "Verif.Props.C115_sh_to_b_errors"
   ],
   "note": ""
  },
  {
   "property": "C116",
   "status": "partial",
   "theorems": [
    "Verif.Props.C116_sinusoid",
    "Verif.Props.C116_edges",
    "Verif.Props.C116_lengths",
    "Verif.Props.C116_unequal_fails"
   ],
   "note": "False of the code for signals of different length: only the number of frequency lines is compared, so signals of four and five samples share one frequency axis (C116_unequal_fails), and the line at half the sampling rate is doubled, a deviation noted in the code (C116_edges). Proved: lines, axis and dB values of every fitting sinusoid (C116_sinusoid), rejected inputs (C116_lengths)."
  },
  {
   "property": "C117",
   "status": "partial",
   "theorems": [
    "Verif.Props.C117_axis",
    "Verif.Props.C117_values",
    "Verif.Props.C117_legend_partial",
    "Verif.Props.C117_labels_fail",
    "Verif.Props.C117_smoothing"
   ],
   "note": "False of the code with smoothing: the caller's list of labels grows by one entry, and a tuple of labels raises AttributeError (C117_labels_fail). Proved: axis, values, rejected lengths for all inputs, legend (C117_legend_partial)."
  },
  {
   "property": "C118",
   "status": "partial",
   "theorems": [
    "Verif.Props.C118_partial",
    "Verif.Props.C118_unwrap",
    "Verif.Props.C118_quarter_turn",
    "Verif.Props.C118_lost",
    "Verif.Props.C118_fails"
   ],
   "note": "False of the code where the real part is negative: np.clip compares complex numbers by their real part first, so -1 is drawn as -280 dB with phase zero (C118_fails, C118_lost). Proved where all real parts exceed the floor (C118_partial)."
  },
  {
   "property": "C119",
   "status": "partial",
   "theorems": [
    "Verif.Props.C119_rms_partial",
    "Verif.Props.C119_tail_fails",
    "Verif.Props.C119_map",
    "Verif.Props.C119_values_partial",
    "Verif.Props.C119_source_partial",
    "Verif.Props.C119_errors",
    "Verif.Props.C119_given_limits",
    "Verif.Props.C119_default_fails",
    "Verif.Props.C119_sequence_fails"
   ],
   "note": "False of the code for more than 65536 samples that are no multiple: the last incomplete block is ignored (C119_tail_fails, all such lengths); and a linear map without limits changes the default limits of later calls (C119_default_fails). Proved: other lengths (C119_rms_partial, C119_source_partial), and for all inputs the drawn points and values (C119_map), given limits and errors."
  },
  {
   "property": "C120",
   "status": "partial",
   "theorems": [
    "Verif.Props.C120_azimuth_partial",
    "Verif.Props.C120_azimuth_fails",
    "Verif.Props.C120_points",
    "Verif.Props.C120_sizes",
    "Verif.Props.C120_drawn",
    "Verif.Props.C120_errors",
    "Verif.Props.C120_caller"
   ],
   "note": "False of the code for azimuths above 2 pi (drawn on the opposite side) and below -pi (drawn outside of the axes), C120_azimuth_fails; and the caller's azimuths change if one exceeds pi (C120_caller). Proved for azimuths from -pi to 2 pi (C120_azimuth_partial); order, sizes, colours and errors for all inputs."
  },
  {
   "property": "C121",
   "status": "partial",
   "theorems": [
    "Verif.Props.C121_points",
    "Verif.Props.C121_caller",
    "Verif.Props.C121_caller_fails"
   ],
   "note": "False of the code with respect to the arguments: the caller's azimuth array is written to exactly if an azimuth exceeds pi (C121_caller, C121_caller_fails). All else proved."
  },
  {
   "property": "C122",
   "status": "partial",
   "theorems": [
    "Verif.Props.C122_azimuth",
    "Verif.Props.C122_azimuth_fails",
    "Verif.Props.C122_maps",
    "Verif.Props.C122_empty"
   ],
   "note": "False of the code for azimuths below -pi, which stay outside of the axes (C122_azimuth_fails). Proved from -pi on, and values and limits for all inputs; level differences are assumed to be finite."
  },
  {
   "property": "C123",
   "status": "proved",
   "theorems": [
    "Verif.Props.C123_names",
    "Verif.Props.C123_meaning",
    "Verif.Props.C123_silent",
    "Verif.Props.C123_scale",
    "Verif.Props.C123_nls",
    "Verif.Props.C123_sad"
   ],
   "note": ""
  },
  {
   "property": "C124",
   "status": "partial",
   "theorems": [
    "Verif.Props.C124_faces",
    "Verif.Props.C124_colors_partial",
    "Verif.Props.C124_colors_fail",
    "Verif.Props.C124_labels"
   ],
   "note": "False of the code with colours and invalid faces: the list of colours for all faces is handed to the collection of the valid ones, so colours move to other faces (C124_colors_fail). Proved if no face is invalid or marking is off (C124_colors_partial); faces, labels, limits and errors for all inputs."
  },
  {
   "property": "C125",
   "status": "proved",
   "theorems": [
    "Verif.Props.C125_curves",
    "Verif.Props.C125_limits"
   ],
   "note": ""
  },
  {
   "property": "C126",
   "status": "partial",
   "theorems": [
    "Verif.Props.C126_cells_partial",
    "Verif.Props.C126_ticks",
    "Verif.Props.C126_rows_fail",
    "Verif.Props.C126_groups"
   ],
   "note": "False of the code if the number of signals is no multiple of num_groups: the last signal is not drawn (C126_rows_fail, all such numbers). Proved otherwise (C126_cells_partial); ticks and errors for all inputs."
  },
  {
   "property": "C127",
   "status": "partial",
   "theorems": [
    "Verif.Props.C127_points",
    "Verif.Props.C127_real",
    "Verif.Props.C127_inverse",
    "Verif.Props.C127_overlay_partial",
    "Verif.Props.C127_overlay_fails",
    "Verif.Props.C127_subplot_partial",
    "Verif.Props.C127_subplot_fails",
    "Verif.Props.C127_axes"
   ],
   "note": "False of the code for overlays of mixed types without sh_type, which draw real coefficients with complex harmonics (C127_overlay_fails), and for a subplot of one entry, which raises TypeError (C127_subplot_fails). Proved otherwise; sh_coeffs for all inputs."
  },
  {
   "property": "C128",
   "status": "proved",
   "theorems": [
    "Verif.Props.C128_signals",
    "Verif.Props.C128_linear",
    "Verif.Props.C128_channels"
   ],
   "note": ""
  },
  {
   "property": "C129",
   "status": "proved",
   "theorems": [
    "Verif.Props.C129_setup",
    "Verif.Props.C129_errors",
    "Verif.Props.C129_completes"
   ],
   "note": ""
  },
  {
   "property": "C130",
   "status": "proved",
   "theorems": [
    "Verif.Props.C130_factors",
    "Verif.Props.C130_limits"
   ],
   "note": ""
  },
  {
   "property": "C131",
   "status": "partial",
   "theorems": [
    "Verif.Props.C131_aspect",
    "Verif.Props.C131_points",
    "Verif.Props.C131_errors",
    "Verif.Props.C131_axes_partial",
    "Verif.Props.C131_axes_fails"
   ],
   "note": "False of the code for values of magnitude above one in direction of an axis: the axes are fixed to [-1, 1] (C131_axes_fails). Visibility proved for magnitudes up to one, everything else for all inputs."
  },
  {
   "property": "C132",
   "status": "partial",
   "theorems": [
    "Verif.Props.C132_labels",
    "Verif.Props.C132_arrows",
    "Verif.Props.C132_options",
    "Verif.Props.C132_axes_partial",
    "Verif.Props.C132_axes_fails"
   ],
   "note": "False of the code for loudspeakers further than one metre from the listener, which lie outside of the fixed axes (C132_axes_fails). Everything else proved for all setups."
  },
  {
   "property": "C133",
   "status": "partial",
   "theorems": [
    "Verif.Props.C133_fails"
   ],
   "note": "False of the code for all inputs: it asks for an attribute channel, which MultiSignal does not have (C133_fails)."
  },
  {
   "property": "C134",
   "status": "proved",
   "theorems": [
    "Verif.Props.C134_real",
    "Verif.Props.C134_complex",
    "Verif.Props.C134_given",
    "Verif.Props.C134_precomputed"
   ],
   "note": ""
  },
  {
   "property": "C135",
   "status": "partial",
   "theorems": [
    "Verif.Props.C135_each",
    "Verif.Props.C135_vbap",
    "Verif.Props.C135_lattice",
    "Verif.Props.C135_scale",
    "Verif.Props.C135_epad",
    "Verif.Props.C135_design",
    "Verif.Props.C135_error_partial",
    "Verif.Props.C135_error_fails",
    "Verif.Props.C135_nls",
    "Verif.Props.C135_markers",
    "Verif.Props.C135_unknown"
   ],
   "note": "False for the Ambisonic renderers if 180 is not a multiple of ele_steps: in the row beyond 180 degrees the spherical harmonics (which see the cosine of the zenith angle) and the points (which see its sine) belong to opposite azimuths, so an error of twice the excess is drawn (C135_design; witness C135_error_fails). Everything else is proved in full; C135_error_partial is the claim for dividing steps."
  },
  {
   "property": "C136",
   "status": "proved",
   "theorems": [
    "Verif.Props.C136_neighbours",
    "Verif.Props.C136_bands"
   ],
   "note": "The bins of an edge are rounded (floor for the edge, nearest for the half width), hence margins of 1.5 bins below and 0.5 bins above the transition."
  },
  {
   "property": "C137",
   "status": "proved",
   "theorems": [
    "Verif.Utils.C137_angle",
    "Verif.Utils.C137_invariant",
    "Verif.Utils.C137_triangle"
   ],
   "note": ""
  },
  {
   "property": "C138",
   "status": "proved",
   "theorems": [
    "Verif.Props.C138_vbap",
    "Verif.Props.C138_panning",
    "Verif.Props.C138_nls",
    "Verif.Props.C138_setup",
    "Verif.Props.C138_pop",
    "Verif.Props.C138_order",
    "Verif.Props.C138_decoders"
   ],
   "note": ""
  },
  {
   "property": "C139",
   "status": "proved",
   "theorems": [
    "Verif.Props.C139_vbap",
    "Verif.Props.C139_decoders",
    "Verif.Props.C139_nls",
    "Verif.Props.C139_setup",
    "Verif.Props.C139_pop",
    "Verif.Props.C139_edge_fails"
   ],
   "note": ""
  },
  {
   "property": "C140",
   "status": "partial",
   "theorems": [
    "Verif.Props.C140_src_to_sh",
    "Verif.Props.C140_groups",
    "Verif.Props.C140_sht",
    "Verif.Props.C140_inverse_sht",
    "Verif.Props.C140_sht_lstsq",
    "Verif.Props.C140_rotate",
    "Verif.Props.C140_formats",
    "Verif.Props.C140_decoders",
    "Verif.Props.C140_scene",
    "Verif.Props.C140_binauralize_partial",
    "Verif.Props.C140_binauralize_loud",
    "Verif.Props.C140_binauralize_fails"
   ],
   "note": "False for binauralize, which drops loudspeakers whose signal never exceeds 10e-6 (C140_binauralize_fails); C140_binauralize_partial bounds the deviation and C140_binauralize_loud proves exact superposition when no loudspeaker is quiet without being silent. All other functions are proved in full."
  },
  {
   "property": "C141",
   "status": "partial",
   "theorems": [
    "Verif.Props.C141_vbap",
    "Verif.Props.C141_panning",
    "Verif.Props.C141_nls",
    "Verif.Props.C141_distance",
    "Verif.Props.C141_order",
    "Verif.Props.C141_decoders",
    "Verif.Props.C141_setup",
    "Verif.Props.C141_pop",
    "Verif.Props.C141_normals_fail"
   ],
   "note": "False for the normals of small setups, because calculate_face_normals uses an absolute tolerance (C141_normals_fail). C141_setup proves the claim for setups none of whose facets is edge-on up to the tolerance in either unit, and assumes that the hull routine itself is unit free. C141_pop is for a listener at the origin, where the constructor places it. The rest is proved in full."
  },
  {
   "property": "C142",
   "status": "partial",
   "theorems": [
    "Verif.Props.C142_blocks",
    "Verif.Props.C142_transforms",
    "Verif.Props.C142_sht_lstsq",
    "Verif.Props.C142_decoders",
    "Verif.Props.C142_rotate",
    "Verif.Props.C142_formats",
    "Verif.Props.C142_delay",
    "Verif.Props.C142_overlap_partial",
    "Verif.Props.C142_overlap_loud",
    "Verif.Props.C142_overlap_fails"
   ],
   "note": "False for overlap and add with binauralize, which drops loudspeakers whose signal never exceeds 10e-6 within a block (C142_overlap_fails); C142_overlap_partial bounds the deviation, C142_overlap_loud proves equality when no loudspeaker is quiet without being silent. Everything else is proved in full."
  },
  {
   "property": "C143",
   "status": "proved",
   "theorems": [
    "Verif.Props.C143_harmonics",
    "Verif.Props.C143_encode",
    "Verif.Props.C143_twice",
    "Verif.Props.C143_decoders",
    "Verif.Props.C143_symmetric",
    "Verif.Props.C143_scene",
    "Verif.Props.C143_mirrored",
    "Verif.Props.C143_vbap",
    "Verif.Props.C143_nls",
    "Verif.Props.C143_setup",
    "Verif.Props.C143_normals_fail",
    "Verif.Props.C143_binauralize"
   ],
   "note": ""
  },
  {
   "property": "C144",
   "status": "proved",
   "theorems": [
    "Verif.Props.C144_encode",
    "Verif.Props.C144_rotate",
    "Verif.Props.C144_formats",
    "Verif.Props.C144_decoders",
    "Verif.Props.C144_padding",
    "Verif.Props.C144_allrad",
    "Verif.Props.C144_lstsq_fails"
   ],
   "note": ""
  },
  {
   "property": "C145",
   "status": "proved",
   "theorems": [
    "Verif.Props.C145_turned",
    "Verif.Props.C145_mirrored",
    "Verif.Props.C145_music_fails",
    "Verif.Props.C145_intensity",
    "Verif.Props.C145_b_format",
    "Verif.Props.C145_energy_vector"
   ],
   "note": ""
  },
  {
   "property": "C146",
   "status": "partial",
   "theorems": [
    "Verif.Props.C146_mvdr",
    "Verif.Props.C146_lcmv",
    "Verif.Props.C146_separation",
    "Verif.Props.C146_music",
    "Verif.Props.C146_count_fails",
    "Verif.Props.C146_default_fails",
    "Verif.Props.C146_count_partial",
    "Verif.Props.C146_intensity",
    "Verif.Props.C146_energy_vector",
    "Verif.Props.C146_decay",
    "Verif.Props.C146_match",
    "Verif.Props.C146_itd"
   ],
   "note": "False for estimate_num_sources and separate_cov by default (C146_count_fails, C146_default_fails): the variance is compared to an absolute threshold. C146_count_partial proves that, once neighbouring eigenvalues differ by more than the threshold, a higher level never lowers the estimate. All other parts are proved in full."
  },
  {
   "property": "C147",
   "status": "partial",
   "theorems": [
    "Verif.Props.C147_signals",
    "Verif.Props.C147_filterbank",
    "Verif.Props.C147_lowest_fails",
    "Verif.Props.C147_alias_fails",
    "Verif.Props.C147_alias_partial",
    "Verif.Props.C147_hrirs",
    "Verif.Props.C147_rest"
   ],
   "note": "False for the centre frequency of the lowest band of frac_octave_filterbank (C147_lowest_fails: geometric mean with 1 Hz) and for its upper limit at odd sampling rates (C147_alias_fails: fs // 2). C147_alias_partial covers even rates; all other parts are proved in full."
  },
  {
   "property": "C148",
   "status": "proved",
   "theorems": [
    "Verif.Props.C148_split",
    "Verif.Props.C148_select",
    "Verif.Props.C148_jobs",
    "Verif.Props.C148_allrap",
    "Verif.Props.C148_harmonics",
    "Verif.Props.C148_analysis",
    "Verif.Props.C148_nearest"
   ],
   "note": ""
  },
  {
   "property": "C149",
   "status": "proved",
   "theorems": [
    "Verif.Props.C149_superposition",
    "Verif.Props.C149_blocks",
    "Verif.Props.C149_silent",
    "Verif.Props.C149_one_direction",
    "Verif.Props.C149_equaliser",
    "Verif.Props.C149_ears",
    "Verif.Props.C149_stereo"
   ],
   "note": ""
  },
  {
   "property": "C150",
   "status": "partial",
   "theorems": [
    "Verif.Props.C150_transforms",
    "Verif.Props.C150_weights",
    "Verif.Props.C150_cond",
    "Verif.Props.C150_nearest_partial",
    "Verif.Props.C150_tie_fails",
    "Verif.Props.C150_interaural",
    "Verif.Props.C150_ctf",
    "Verif.Props.C150_magls",
    "Verif.Props.C150_binaural_partial"
   ],
   "note": "False for directions equally near to two grid points with different responses (C150_tie_fails: the one listed first is used). C150_nearest_partial and C150_binaural_partial cover all other directions; the rest is proved in full."
  },
  {
   "property": "C151",
   "status": "proved",
   "theorems": [
    "Verif.Props.C151_same_rotation",
    "Verif.Props.C151_all_rotations",
    "Verif.Props.C151_composition",
    "Verif.Props.C151_sequence",
    "Verif.Props.C151_undo",
    "Verif.Props.C151_product"
   ],
   "note": ""
  },
  {
   "property": "C152",
   "status": "proved",
   "theorems": [
    "Verif.Props.C152_equal_angle_positive",
    "Verif.Props.C152_gauss_positive",
    "Verif.Props.C152_parseval",
    "Verif.Props.C152_projection",
    "Verif.Props.C152_best",
    "Verif.Props.C152_bessel",
    "Verif.Props.C152_lstsq",
    "Verif.Props.C152_complex"
   ],
   "note": ""
  },
  {
   "property": "C153",
   "status": "proved",
   "theorems": [
    "Verif.Props.C153_corners",
    "Verif.Props.C153_loudspeaker",
    "Verif.Props.C153_continuous",
    "Verif.Props.C153_jump"
   ],
   "note": ""
  },
  {
   "property": "C154",
   "status": "proved",
   "theorems": [
    "Verif.Props.C154_everywhere",
    "Verif.Props.C154_allrap2"
   ],
   "note": ""
  },
  {
   "property": "C155",
   "status": "proved",
   "theorems": [
    "Verif.Props.C155_outer",
    "Verif.Props.C155_normal_limit",
    "Verif.Props.C155_inside"
   ],
   "note": ""
  },
  {
   "property": "C156",
   "status": "proved",
   "theorems": [
    "Verif.Props.C156_order",
    "Verif.Props.C156_pipeline"
   ],
   "note": ""
  },
  {
   "property": "C157",
   "status": "proved",
   "theorems": [
    "Verif.Props.C157_mono",
    "Verif.Props.C157_sh2bin",
    "Verif.Props.C157_blocks",
    "Verif.Props.C157_matrix",
    "Verif.Props.C157_turned"
   ],
   "note": ""
  },
  {
   "property": "C158",
   "status": "proved",
   "theorems": [
    "Verif.Props.C158_local",
    "Verif.Props.C158_delay",
    "Verif.Props.C158_plane_wave"
   ],
   "note": ""
  },
  {
   "property": "C159",
   "status": "proved",
   "theorems": [
    "Verif.Props.C159_max_directivity",
    "Verif.Props.C159_cardioid",
    "Verif.Props.C159_mvdr_diffuse",
    "Verif.Props.C159_mvdr_source",
    "Verif.Props.C159_lcmv_single"
   ],
   "note": ""
  },
  {
   "property": "C160",
   "status": "proved",
   "theorems": [
    "Verif.Props.C160_separate",
    "Verif.Props.C160_music",
    "Verif.Props.C160_separate_default",
    "Verif.Props.C160_extract"
   ],
   "note": ""
  },
  {
   "property": "C161",
   "status": "proved",
   "theorems": [
    "Verif.Props.C161_mad_least_squares",
    "Verif.Props.C161_mad_at_loudspeaker"
   ],
   "note": ""
  },
  {
   "property": "C162",
   "status": "proved",
   "theorems": [
    "Verif.Props.C162_epad_closest",
    "Verif.Props.C162_epad_few"
   ],
   "note": ""
  },
  {
   "property": "C163",
   "status": "proved",
   "theorems": [
    "Verif.Props.C163_mad_moments",
    "Verif.Props.C163_design_moments",
    "Verif.Props.C163_velocity"
   ],
   "note": ""
  },
  {
   "property": "C164",
   "status": "proved",
   "theorems": [
    "Verif.Props.C164_order",
    "Verif.Props.C164_kept"
   ],
   "note": ""
  },
  {
   "property": "C165",
   "status": "proved",
   "theorems": [
    "Verif.Props.C165_decoders",
    "Verif.Props.C165_beams",
    "Verif.Props.C165_filters",
    "Verif.Props.C165_binaural",
    "Verif.Props.C165_panning"
   ],
   "note": ""
  },
  {
   "property": "C166",
   "status": "partial",
   "theorems": [
    "Verif.Props.C166_arriving_partial",
    "Verif.Props.C166_distances_fail",
    "Verif.Props.C166_nearest"
   ],
   "note": "The direction is wrong when the loudspeakers that play are at different distances (C166_distances_fail: distances enter the inverted triplets and the compensation). C166_arriving_partial proves the norm and the direction of the loudspeaker signals for all layouts, and the direction of what arrives for equal distances; C166_nearest is proved in full."
  },
  {
   "property": "C167",
   "status": "proved",
   "theorems": [
    "Verif.Props.C167_energy_vector"
   ],
   "note": ""
  },
  {
   "property": "C168",
   "status": "proved",
   "theorems": [
    "Verif.Props.C168_frame",
    "Verif.Props.C168_isolated",
    "Verif.Props.C168_history",
    "Verif.Props.C168_failed_setup"
   ],
   "note": ""
  },
  {
   "property": "C169",
   "status": "partial",
   "theorems": [
    "Verif.Props.C169_orientation_partial",
    "Verif.Props.C169_tilt_fails"
   ],
   "note": "False for zenith offsets with loudspeakers off the front half of the median plane (C169_tilt_fails: looking up or down by a right angle renders front and back from the same direction, which no rotation or reflection of the head does). C169_orientation_partial proves azimuth offsets for all layouts, whole turns, and zenith offsets for loudspeakers at azimuth zero."
  },
  {
   "property": "C170",
   "status": "proved",
   "theorems": [
    "Verif.Props.C170_weights",
    "Verif.Props.C170_nothing_else"
   ],
   "note": ""
  },
  {
   "property": "C171",
   "status": "proved",
   "theorems": [
    "Verif.Props.C171_sharpest",
    "Verif.Props.C171_everywhere"
   ],
   "note": ""
  },
  {
   "property": "C172",
   "status": "proved",
   "theorems": [
    "Verif.Props.C172_sharpest_energy"
   ],
   "note": ""
  },
  {
   "property": "C173",
   "status": "proved",
   "theorems": [
    "Verif.Props.C173_maxre"
   ],
   "note": ""
  },
  {
   "property": "C174",
   "status": "proved",
   "theorems": [
    "Verif.Props.C174_scene"
   ],
   "note": ""
  },
  {
   "property": "C175",
   "status": "proved",
   "theorems": [
    "Verif.Props.C175_field",
    "Verif.Props.C175_perfect",
    "Verif.Props.C175_energy"
   ],
   "note": ""
  },
  {
   "property": "C176",
   "status": "proved",
   "theorems": [
    "Verif.Utils.C176_reached",
    "Verif.Utils.C176_smallest"
   ],
   "note": ""
  },
  {
   "property": "C177",
   "status": "proved",
   "theorems": [
    "Verif.Utils.C177_regular",
    "Verif.Utils.C177_gimbal",
    "Verif.Utils.C177_normal_form",
    "Verif.Utils.C177_sh"
   ],
   "note": ""
  },
  {
   "property": "C178",
   "status": "proved",
   "theorems": [
    "Verif.Props.C178_turned",
    "Verif.Props.C178_mirrored",
    "Verif.Props.C178_sectors"
   ],
   "note": ""
  },
  {
   "property": "C179",
   "status": "proved",
   "theorems": [
    "Verif.Props.C179_commutative",
    "Verif.Props.C179_associative",
    "Verif.Props.C179_linear",
    "Verif.Props.C179_unit",
    "Verif.Props.C179_inner",
    "Verif.Props.C179_no_zero_divisors"
   ],
   "note": ""
  },
  {
   "property": "C180",
   "status": "proved",
   "theorems": [
    "Verif.Props.C180_product",
    "Verif.Props.C180_errors"
   ],
   "note": ""
  },
  {
   "property": "C181",
   "status": "proved",
   "theorems": [
    "Verif.Props.C181_cardioids",
    "Verif.Props.C181_beams"
   ],
   "note": ""
  },
  {
   "property": "C182",
   "status": "proved",
   "theorems": [
    "Verif.Props.C182_reversed",
    "Verif.Props.C182_delays",
    "Verif.Props.C182_flat",
    "Verif.Props.C182_error",
    "Verif.Props.C182_sharp",
    "Verif.Props.C182_cascade",
    "Verif.Props.C182_linear_phase"
   ],
   "note": ""
  },
  {
   "property": "C183",
   "status": "proved",
   "theorems": [
    "Verif.Sph.C183_shape",
    "Verif.Sph.C183_slope",
    "Verif.Sph.C183_order_zero",
    "Verif.Sph.C183_steep",
    "Verif.Sph.C183_wide"
   ],
   "note": ""
  },
  {
   "property": "C184",
   "status": "proved",
   "theorems": [
    "Verif.Props.C184_slope",
    "Verif.Props.C184_lipschitz",
    "Verif.Props.C184_concave",
    "Verif.Props.C184_scale",
    "Verif.Props.C184_threshold"
   ],
   "note": ""
  }
 ]
}
