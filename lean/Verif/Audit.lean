import Verif.Props.Acn
import Verif.Props.Allrad2
import Verif.Props.Allrap2
import Verif.Props.AmbiDecoders
import Verif.Props.AmbiPanning
import Verif.Props.AmbiSetup
import Verif.Props.AnalysisTurned
import Verif.Props.AngleBetween
import Verif.Props.Angles
import Verif.Props.Arriving
import Verif.Props.AudioFiles
import Verif.Props.AxisAngle
import Verif.Props.BeamProducts
import Verif.Props.Beamformers
import Verif.Props.Binaural
import Verif.Props.Binauralize
import Verif.Props.Blocks
import Verif.Props.Brirs
import Verif.Props.Bsdm
import Verif.Props.Butterworth
import Verif.Props.ClippingCurve
import Verif.Props.Coordinates
import Verif.Props.Covariance
import Verif.Props.Ctf
import Verif.Props.DefaultHrirs
import Verif.Props.DesignDecoding
import Verif.Props.Directivity
import Verif.Props.DummyHrirs
import Verif.Props.EnergyVector
import Verif.Props.EulerAngles
import Verif.Props.FaceGeometry
import Verif.Props.FilterTable
import Verif.Props.Filterbank
import Verif.Props.FilterbankBands
import Verif.Props.Filtering
import Verif.Props.FiveDesign
import Verif.Props.GridOrder
import Verif.Props.GridWeights
import Verif.Props.Grids
import Verif.Props.HeadTurn
import Verif.Props.Headroom
import Verif.Props.Histories
import Verif.Props.Hrirs
import Verif.Props.HullChecks
import Verif.Props.HullNormals
import Verif.Props.Imaginary
import Verif.Props.IntensityLocal
import Verif.Props.Interaural
import Verif.Props.LagrangeFlat
import Verif.Props.Layouts
import Verif.Props.LevelInvariance
import Verif.Props.MagLs
import Verif.Props.MaxRE
import Verif.Props.MaxREOptimal
import Verif.Props.MaxREThreshold
import Verif.Props.Mirror
import Verif.Props.ModalWeights
import Verif.Props.ModeMatching
import Verif.Props.Moments
import Verif.Props.MultiSignal
import Verif.Props.OneByOne
import Verif.Props.OrderWeights
import Verif.Props.Parseval
import Verif.Props.PerformanceGains
import Verif.Props.Pipeline
import Verif.Props.PlotMaps
import Verif.Props.PlotMisc
import Verif.Props.PlotPerformance
import Verif.Props.PlotShapes
import Verif.Props.PlotSpectra
import Verif.Props.PostEq
import Verif.Props.PostEq2
import Verif.Props.ProcessFilters
import Verif.Props.ProcessSignals
import Verif.Props.Procrustes
import Verif.Props.PseudoIntensity
import Verif.Props.Refining
import Verif.Props.Renumbered
import Verif.Props.RetainOutside
import Verif.Props.RotationGroup
import Verif.Props.Rotations3
import Verif.Props.Scaled
import Verif.Props.SceneSharpness
import Verif.Props.SdmAlgebra
import Verif.Props.SdmRender
import Verif.Props.Sector
import Verif.Props.SectorsTogether
import Verif.Props.SectorsTurned
import Verif.Props.SetupHeap
import Verif.Props.ShAlgebra
import Verif.Props.ShComplex
import Verif.Props.ShFormats
import Verif.Props.ShMultComplex
import Verif.Props.ShRotation
import Verif.Props.ShTruncate
import Verif.Props.Sharpest
import Verif.Props.SharpestEnergy
import Verif.Props.SignalBasics
import Verif.Props.SignalConv
import Verif.Props.SignalCopies
import Verif.Props.SignalFiles
import Verif.Props.Signals
import Verif.Props.Smoothing
import Verif.Props.Sofa
import Verif.Props.SourceScene
import Verif.Props.SphDesigns
import Verif.Props.SphMisc
import Verif.Props.SphereModes
import Verif.Props.SubbandLevels
import Verif.Props.Superposition
import Verif.Props.Surround
import Verif.Props.TimeUnit
import Verif.Props.Triangles
import Verif.Props.Truncated
import Verif.Props.Turned
import Verif.Props.UtilsArrays
import Verif.Props.UtilsMisc
import Verif.Props.Vbap
import Verif.Props.VbapEdges
import Verif.Props.VbapHistory
import Verif.Props.VbipEnergy

/-! Axioms of every property theorem (generated by tools/gen_manifest.py). -/

#print axioms Verif.Utils.C01_sph2cart_cart2sph
#print axioms Verif.Utils.C01_ranges
#print axioms Verif.Utils.C01_cart2sph_sph2cart
#print axioms Verif.Utils.C01_steady
#print axioms Verif.Utils.C01_dir2cart_cart2dir
#print axioms Verif.Utils.C01_matlab
#print axioms Verif.Utils.C02_ranges
#print axioms Verif.Utils.C02_periodic
#print axioms Verif.Utils.C02_inverse
#print axioms Verif.Utils.C02_inverse_mod
#print axioms Verif.Utils.C02_value
#print axioms Verif.Utils.C03_haversine_eq_angle
#print axioms Verif.Utils.C03_haversine_eq_angleBetween
#print axioms Verif.Utils.C03_metric
#print axioms Verif.Utils.C04_isRotation
#print axioms Verif.Utils.C04_dot
#print axioms Verif.Utils.C04_axes
#print axioms Verif.Utils.C05_rotation
#print axioms Verif.Utils.C05_below_threshold
#print axioms Verif.Utils.C05_negative_angle_not_inverse
#print axioms Verif.Utils.C05_reject
#print axioms Verif.Utils.C06_error_iff
#print axioms Verif.Utils.C06_maps
#print axioms Verif.Utils.C06_gap
#print axioms Verif.Utils.C07_fromDb_db
#print axioms Verif.Utils.C07_db_fromDb
#print axioms Verif.Utils.C07_laws
#print axioms Verif.Utils.C08_rows
#print axioms Verif.Utils.C08_lossless
#print axioms Verif.Utils.C08_errors
#print axioms Verif.Utils.C09_accepts_iff
#print axioms Verif.Utils.C09_result
#print axioms Verif.Sph.C10_repeatPerOrder
#print axioms Verif.Sph.C10_shMatrix_columns
#print axioms Verif.Sph.C10_shMatrix_columns_complex
#print axioms Verif.Sph.C10_prefix
#print axioms Verif.Sph.C10_shRow_vector
#print axioms Verif.Sph.C10_repeatPerOrder_vector
#print axioms Verif.Sph.C10_shMatrix_result
#print axioms Verif.Sph.C11_order_iff
#print axioms Verif.Sph.C11_order_square
#print axioms Verif.Sph.C11_order_surplus
#print axioms Verif.Sph.C12_scaling
#print axioms Verif.Sph.C12_scaling_axis1
#print axioms Verif.Sph.C12_omni
#print axioms Verif.Sph.C12_inverse
#print axioms Verif.Sph.C12_no_square
#print axioms Verif.Sph.C13_channels
#print axioms Verif.Sph.C13_round_trip
#print axioms Verif.Sph.C13_errors
#print axioms Verif.Sph.C14_b_encoding
#print axioms Verif.Sph.C15_soundfield
#print axioms Verif.Sph.C15_solid
#print axioms Verif.Sph.C16_steering_meaning
#print axioms Verif.Sph.C16_unityGain
#print axioms Verif.Sph.C16_unityGain_idem_scale
#print axioms Verif.Sph.C16_hypercardioid
#print axioms Verif.Sph.C16_cardioid
#print axioms Verif.Sph.C16_maxre
#print axioms Verif.Sph.C16_butterworth
#print axioms Verif.Sph.C16_no_compensation
#print axioms Verif.Sph.C17_cardioid
#print axioms Verif.Sph.C17_in_phase
#print axioms Verif.Sph.C18_addition
#print axioms Verif.Sph.C18_kernel
#print axioms Verif.Sph.C18_kernel_default
#print axioms Verif.Sph.C18_weights
#print axioms Verif.Sph.C18_row_norm
#print axioms Verif.Sph.C19_rotation
#print axioms Verif.Sph.C19_rotation_vec2dir
#print axioms Verif.Sph.C19_rotateSh
#print axioms Verif.Sph.C20_orthogonal
#print axioms Verif.Sph.C20_blocks
#print axioms Verif.Sph.C20_energy_per_order
#print axioms Verif.Sph.C20_identity
#print axioms Verif.Sph.C21_defined_partial
#print axioms Verif.Sph.C21_order_zero_raises
#print axioms Verif.Sph.C21_rotateSh_order_zero_raises
#print axioms Verif.Sph.C21_rotateSh_channels
#print axioms Verif.Props.C22_equal_angle
#print axioms Verif.Props.C22_gauss
#print axioms Verif.Props.C23_recover
#print axioms Verif.Props.C23_min_norm
#print axioms Verif.Props.C24_perfect
#print axioms Verif.Props.C24_pinv
#print axioms Verif.Props.C24_energy_common
#print axioms Verif.Props.C24_energy
#print axioms Verif.Props.C24_other
#print axioms Verif.Props.C25_product
#print axioms Verif.Props.C25_errors
#print axioms Verif.Props.C26_le_one
#print axioms Verif.Props.C26_single
#print axioms Verif.Props.C26_zero
#print axioms Verif.Props.C26_scale
#print axioms Verif.Props.C26_value
#print axioms Verif.Props.C26_sizes
#print axioms Verif.Props.C27_equal_angle
#print axioms Verif.Props.C27_gauss
#print axioms Verif.Props.C27_equal_polar_angle
#print axioms Verif.Props.C28_n_design
#print axioms Verif.Props.C28_lebedev
#print axioms Verif.Props.C28_maxDet
#print axioms Verif.Props.C28_t_design
#print axioms Verif.Props.C28_fliege_maier
#print axioms Verif.Props.C29_vbap
#print axioms Verif.Props.C30_each
#print axioms Verif.Props.C30_first
#print axioms Verif.Props.C30_cone
#print axioms Verif.Props.C30_scale
#print axioms Verif.Props.C31_schedule_independent
#print axioms Verif.Props.C31_bad_jobs
#print axioms Verif.Props.C32_stale
#print axioms Verif.Props.C32_first_call_partial
#print axioms Verif.Props.C32_vbap_partial
#print axioms Verif.Props.C33_stored
#print axioms Verif.Props.C33_value
#print axioms Verif.Props.C33_stale
#print axioms Verif.Props.C33_layout_partial
#print axioms Verif.Props.C33_unit_partial
#print axioms Verif.Props.C34_row
#print axioms Verif.Props.C34_vbip
#print axioms Verif.Props.C35_survive
#print axioms Verif.Props.C35_sublist
#print axioms Verif.Props.C35_idempotent
#print axioms Verif.Props.C36_monotone
#print axioms Verif.Props.C36_wrap
#print axioms Verif.Props.C37_sort
#print axioms Verif.Props.C37_valid
#print axioms Verif.Props.C38_area_value
#print axioms Verif.Props.C38_centres
#print axioms Verif.Props.C38_area
#print axioms Verif.Props.C38_normal
#print axioms Verif.Props.C38_orientation
#print axioms Verif.Props.C38_coplanar
#print axioms Verif.Props.C39_sequences_partial
#print axioms Verif.Props.C39_no_listener_partial
#print axioms Verif.Props.C39_effect
#print axioms Verif.Props.C39_modified
#print axioms Verif.Props.C39_shared
#print axioms Verif.Props.C39_listener_short
#print axioms Verif.Props.C39_from_sph
#print axioms Verif.Props.C39_points
#print axioms Verif.Props.C39_from_sph_points
#print axioms Verif.Props.C40_setup
#print axioms Verif.Props.C40_guard
#print axioms Verif.Props.C40_history
#print axioms Verif.Props.C40_order
#print axioms Verif.Props.C41_allrad_allrap
#print axioms Verif.Props.C41_linear
#print axioms Verif.Props.C41_reject
#print axioms Verif.Props.C41_imaginary
#print axioms Verif.Props.C42_energy
#print axioms Verif.Props.C42_plane_wave
#print axioms Verif.Props.C42_reject
#print axioms Verif.Props.C43_mad
#print axioms Verif.Props.C43_sad
#print axioms Verif.Props.C43_sad_eq_mad
#print axioms Verif.Props.C43_truncates
#print axioms Verif.Props.C43_reject
#print axioms Verif.Props.C43_default_order
#print axioms Verif.Props.C44_nearest
#print axioms Verif.Props.C44_scale
#print axioms Verif.Decoder.C45_convolution_partial
#print axioms Verif.Decoder.C45_linear_partial
#print axioms Verif.Decoder.C45_reject
#print axioms Verif.Decoder.C45_order_zero_fails
#print axioms Verif.Decoder.C45_one_tap_fails
#print axioms Verif.Decoder.C46_loudspeaker_signals
#print axioms Verif.Decoder.C46_reject
#print axioms Verif.Decoder.C46_broadcast
#print axioms Verif.Decoder.C46_binauralize
#print axioms Verif.Decoder.C46_binauralize_reject
#print axioms Verif.Sig.C47_trim
#print axioms Verif.Sig.C47_negative_start
#print axioms Verif.Sig.C47_reject
#print axioms Verif.Sig.C47_no_end
#print axioms Verif.Sig.C47_dur
#print axioms Verif.Sig.C47_sequence
#print axioms Verif.Sig.C47_compose
#print axioms Verif.Sig.C47_multi
#print axioms Verif.Sig.C48_history_partial
#print axioms Verif.Sig.C48_conv_fails
#print axioms Verif.Sig.C48_resample_mono_fails
#print axioms Verif.Sig.C48_resample_errors
#print axioms Verif.Sig.C49_init_partial
#print axioms Verif.Sig.C49_resample_partial
#print axioms Verif.Sig.C49_frozen
#print axioms Verif.Sig.C49_resample_history_partial
#print axioms Verif.Sig.C49_trim_fails
#print axioms Verif.Sig.C49_ambeo_fails
#print axioms Verif.SigHeap.C50_copy_independent
#print axioms Verif.SigHeap.C50_write
#print axioms Verif.SigHeap.C50_trim_audio
#print axioms Verif.SigHeap.C50_reject
#print axioms Verif.SigHeap.C50_values
#print axioms Verif.Sig.C51_scalar
#print axioms Verif.Sig.C51_array
#print axioms Verif.Sig.C51_rows
#print axioms Verif.Sig.C51_on_grid
#print axioms Verif.Sig.C51_reject
#print axioms Verif.Sig.C52_init_partial
#print axioms Verif.Sig.C52_reject
#print axioms Verif.Sig.C52_constructor_fails
#print axioms Verif.Sig.C52_history_partial
#print axioms Verif.Sig.C52_equalise
#print axioms Verif.Sig.C52_equalise_half
#print axioms Verif.Props.C53_interpolates
#print axioms Verif.Props.C53_sum
#print axioms Verif.Props.C53_impulse
#print axioms Verif.Props.C53_unique
#print axioms Verif.Props.C54_terminates
#print axioms Verif.Props.C54_energy
#print axioms Verif.Props.C54_amplitude
#print axioms Verif.Props.C54_reject
#print axioms Verif.Props.C54_negative_overlap_fails
#print axioms Verif.Props.C54_ok_iff
#print axioms Verif.Props.C54_fits
#print axioms Verif.Props.C54_top_fails
#print axioms Verif.Props.C55_unchanged
#print axioms Verif.Props.C55_clipped
#print axioms Verif.Props.C55_bound
#print axioms Verif.Props.C55_strictMono
#print axioms Verif.Props.C55_limit_sharp
#print axioms Verif.Props.C56_match
#print axioms Verif.Props.C56_reject
#print axioms Verif.Props.C57_window
#print axioms Verif.Props.C57_length
#print axioms Verif.Props.C57_between
#print axioms Verif.Props.C57_const
#print axioms Verif.Props.C57_linear_partial
#print axioms Verif.Props.C57_integer_fails
#print axioms Verif.Props.C57_mean
#print axioms Verif.Props.C58_decreasing_partial
#print axioms Verif.Props.C58_first_value
#print axioms Verif.Props.C58_remaining
#print axioms Verif.Props.C58_first_value_fails
#print axioms Verif.Props.C59_range
#print axioms Verif.Props.C59_shape
#print axioms Verif.Props.C59_tail
#print axioms Verif.Props.C59_reject
#print axioms Verif.Props.C60_train_partial
#print axioms Verif.Props.C60_pause_fails
#print axioms Verif.Props.C60_pink_odd_fails
#print axioms Verif.Props.C60_no_fade_fails
#print axioms Verif.Props.C60_pink_short_fails
#print axioms Verif.Props.C60_fade
#print axioms Verif.Props.C60_normalized
#print axioms Verif.Props.C61_jobs
#print axioms Verif.Props.C61_no_jobs
#print axioms Verif.Props.C62_schedule
#print axioms Verif.Props.C62_completes
#print axioms Verif.Props.C62_no_jobs
#print axioms Verif.Props.C62_convolution
#print axioms Verif.Props.C62_own_locks_fail
#print axioms Verif.Props.C63_schedule
#print axioms Verif.Props.C63_values_partial
#print axioms Verif.Props.C63_last_fails
#print axioms Verif.Props.C63_reject
#print axioms Verif.Props.C64_sum
#print axioms Verif.Props.C64_accepts
#print axioms Verif.Props.C64_reject
#print axioms Verif.Props.C64_split
#print axioms Verif.Props.C64_zero
#print axioms Verif.Props.C64_default
#print axioms Verif.Props.C65_range
#print axioms Verif.Props.C65_reject
#print axioms Verif.Props.C65_zero
#print axioms Verif.Props.C65_jump
#print axioms Verif.Props.C65_no_jump
#print axioms Verif.Props.C66_mvdr
#print axioms Verif.Props.C66_reject
#print axioms Verif.Props.C67_lcmv
#print axioms Verif.Props.C67_dependent
#print axioms Verif.Props.C67_reject
#print axioms Verif.Props.C68_plane_wave
#print axioms Verif.Props.C68_on_axis
#print axioms Verif.Props.C68_reject
#print axioms Verif.Props.C69_bounds
#print axioms Verif.Props.C69_value
#print axioms Verif.Props.C69_maximum_partial
#print axioms Verif.Props.C69_zero_sources_fails
#print axioms Verif.Props.C69_reject
#print axioms Verif.Props.C70_stereo
#print axioms Verif.Props.C70_missing_directions
#print axioms Verif.Props.C71_rates_fail
#print axioms Verif.Props.C71_rates
#print axioms Verif.Props.C71_shape
#print axioms Verif.Props.C71_windows
#print axioms Verif.Props.C71_unit_gains
#print axioms Verif.Props.C71_impulse
#print axioms Verif.Props.C72_shape
#print axioms Verif.Props.C72_order_one_partial
#print axioms Verif.Props.C72_order_zero
#print axioms Verif.Props.C72_reject
#print axioms Verif.Props.C72_fails
#print axioms Verif.Props.C73_head_partial
#print axioms Verif.Props.C73_tail_fails
#print axioms Verif.Props.C73_spurious
#print axioms Verif.Props.C73_head2_partial
#print axioms Verif.Props.C73_tail2_fails
#print axioms Verif.Props.C74_ignored
#print axioms Verif.Props.C74_fails
#print axioms Verif.Props.C74_rate_partial
#print axioms Verif.Props.C75_channels
#print axioms Verif.Props.C75_rates
#print axioms Verif.Props.C75_requested
#print axioms Verif.Props.C75_missing
#print axioms Verif.Props.C76_halfway
#print axioms Verif.Props.C76_gain_partial
#print axioms Verif.Props.C76_gain_fails
#print axioms Verif.Props.C76_missing
#print axioms Verif.Props.C76_roundtrip
#print axioms Verif.Props.C76_unprepared
#print axioms Verif.Props.C76_integer_gains_fail
#print axioms Verif.Props.C77_name
#print axioms Verif.Props.C77_loudspeaker
#print axioms Verif.Props.C77_rate
#print axioms Verif.Props.C77_no_jobs_fails
#print axioms Verif.Props.C77_sdm
#print axioms Verif.Props.C78_dummy
#print axioms Verif.Props.C78_rates_partial
#print axioms Verif.Props.C78_high_rate_fails
#print axioms Verif.Props.C78_fs
#print axioms Verif.Props.C78_default_rates
#print axioms Verif.Props.C78_default_errors
#print axioms Verif.Props.C78_default
#print axioms Verif.Props.C79_orthonormal
#print axioms Verif.Props.C79_polynomials
#print axioms Verif.Props.C80_equal_angle
#print axioms Verif.Props.C80_gauss
#print axioms Verif.Props.C81_contiguous
#print axioms Verif.Props.C81_inside
#print axioms Verif.Props.C81_low_fails
#print axioms Verif.Props.C82_mono
#print axioms Verif.Props.C82_multi
#print axioms Verif.Props.C82_ambi
#print axioms Verif.Props.C82_warnings
#print axioms Verif.Props.C82_mono_warnings
#print axioms Verif.Props.C82_single
#print axioms Verif.Props.C82_array
#print axioms Verif.Props.C82_reject
#print axioms Verif.Props.C83_partial
#print axioms Verif.Props.C83_imaginary_fails
#print axioms Verif.Props.C84_exact
#print axioms Verif.Props.C84_design
#print axioms Verif.Props.C84_errors
#print axioms Verif.Props.C85_value
#print axioms Verif.Props.C85_swap
#print axioms Verif.Props.C85_gain
#print axioms Verif.Props.C85_silent
#print axioms Verif.Props.C86_delay
#print axioms Verif.Props.C86_swap
#print axioms Verif.Props.C86_bound
#print axioms Verif.Props.C86_silent
#print axioms Verif.Props.C87_sectors
#print axioms Verif.Props.C87_high_order
#print axioms Verif.Props.C88_rigid
#print axioms Verif.Props.C88_open
#print axioms Verif.Props.C88_value
#print axioms Verif.Props.C88_gain
#print axioms Verif.Props.C88_errors
#print axioms Verif.Props.C89_unwrap
#print axioms Verif.Props.C89_delay
#print axioms Verif.Props.C89_gain
#print axioms Verif.Props.C89_swap
#print axioms Verif.Props.C89_fit
#print axioms Verif.Props.C89_magnitude
#print axioms Verif.Props.C89_errors
#print axioms Verif.Props.C90_gain
#print axioms Verif.Props.C90_swap
#print axioms Verif.Props.C90_reorder
#print axioms Verif.Props.C90_inverse
#print axioms Verif.Props.C90_flat
#print axioms Verif.Props.C90_errors
#print axioms Verif.Props.C90_default
#print axioms Verif.Props.C91_load
#print axioms Verif.Props.C91_errors
#print axioms Verif.Props.C91_no_directions
#print axioms Verif.Props.C91_sh_fit
#print axioms Verif.Props.C91_sh_exact
#print axioms Verif.Props.C92_load
#print axioms Verif.Props.C92_no_nan
#print axioms Verif.Props.C92_errors
#print axioms Verif.Props.C92_rates
#print axioms Verif.Props.C93_equal_angle
#print axioms Verif.Props.C93_gauss
#print axioms Verif.Props.C93_design
#print axioms Verif.Props.C93_addition
#print axioms Verif.Props.C93_symmetry
#print axioms Verif.Props.C93_same_function
#print axioms Verif.Props.C93_matrix
#print axioms Verif.Props.C93_lstsq
#print axioms Verif.Props.C94_load
#print axioms Verif.Props.C94_coefficients
#print axioms Verif.Props.C94_source_rate
#print axioms Verif.Props.C94_errors
#print axioms Verif.Props.C95_spectrum
#print axioms Verif.Props.C95_same_rate_partial
#print axioms Verif.Props.C95_odd_fails
#print axioms Verif.Props.C95_single
#print axioms Verif.Props.C96_scale
#print axioms Verif.Props.C96_power
#print axioms Verif.Props.C96_value
#print axioms Verif.Props.C96_flat
#print axioms Verif.Props.C96_energy
#print axioms Verif.Props.C97_never_amplifies
#print axioms Verif.Props.C97_panned
#print axioms Verif.Props.C98_ball
#print axioms Verif.Props.C98_central_partial
#print axioms Verif.Props.C98_inside_fails
#print axioms Verif.Props.C98_outside_fails
#print axioms Verif.Props.C99_outward
#print axioms Verif.Props.C99_inner
#print axioms Verif.Props.C100_plain
#print axioms Verif.Props.C100_equalised
#print axioms Verif.Props.C100_reject
#print axioms Verif.Props.C101_load
#print axioms Verif.Props.C101_reject
#print axioms Verif.Props.C101_mono
#print axioms Verif.Props.C101_multi
#print axioms Verif.Props.C101_ambi
#print axioms Verif.Props.C102_energy
#print axioms Verif.Props.C102_not_unit
#print axioms Verif.Props.C103_errors
#print axioms Verif.Props.C103_position
#print axioms Verif.Props.C103_hole_partial
#print axioms Verif.Props.C103_two_rims_fails
#print axioms Verif.Props.C103_direction_fails
#print axioms Verif.Props.C104_retain
#print axioms Verif.Props.C104_closed_hull
#print axioms Verif.Props.C104_energy
#print axioms Verif.Props.C104_reject
#print axioms Verif.Sig.C105_mono
#print axioms Verif.Sig.C105_reject
#print axioms Verif.Sig.C105_multi
#print axioms Verif.Sig.C106_samples
#print axioms Verif.Sig.C106_mirror
#print axioms Verif.Sig.C106_pan
#print axioms Verif.Utils.C107_iff
#print axioms Verif.Utils.C107_joins
#print axioms Verif.Utils.C107_common_dimension_fails
#print axioms Verif.Utils.C108_rms
#print axioms Verif.Utils.C108_level
#print axioms Verif.Utils.C109_distance
#print axioms Verif.Utils.C109_sizes
#print axioms Verif.Props.C110_direction
#print axioms Verif.Props.C110_optimal
#print axioms Verif.Props.C110_optimum_exists
#print axioms Verif.Props.C110_max
#print axioms Verif.Props.C110_maxre_weights
#print axioms Verif.Props.C111_decreasing
#print axioms Verif.Props.C111_positive_iff
#print axioms Verif.Props.C112_weighted
#print axioms Verif.Props.C112_basic
#print axioms Verif.Props.C112_rotated
#print axioms Verif.Props.C113_direction
#print axioms Verif.Props.C113_projection
#print axioms Verif.Props.C114_design
#print axioms Verif.Props.C114_range
#print axioms Verif.Props.C114_rotated
#print axioms Verif.Props.C114_error_bound
#print axioms Verif.Props.C115_mono_index
#print axioms Verif.Props.C115_mono_slice
#print axioms Verif.Props.C115_multi_index
#print axioms Verif.Props.C115_hrirs_index
#print axioms Verif.Props.C115_construct
#print axioms Verif.Props.C115_construct_errors
#print axioms Verif.Props.C115_signal
#print axioms Verif.Props.C115_resample
#print axioms Verif.Props.C115_sh_to_b
#print axioms Verif.Props.C115_sh_to_b_errors
#print axioms Verif.Props.C116_sinusoid
#print axioms Verif.Props.C116_edges
#print axioms Verif.Props.C116_lengths
#print axioms Verif.Props.C116_unequal_fails
#print axioms Verif.Props.C117_axis
#print axioms Verif.Props.C117_values
#print axioms Verif.Props.C117_legend_partial
#print axioms Verif.Props.C117_labels_fail
#print axioms Verif.Props.C117_smoothing
#print axioms Verif.Props.C118_partial
#print axioms Verif.Props.C118_unwrap
#print axioms Verif.Props.C118_quarter_turn
#print axioms Verif.Props.C118_lost
#print axioms Verif.Props.C118_fails
#print axioms Verif.Props.C119_rms_partial
#print axioms Verif.Props.C119_tail_fails
#print axioms Verif.Props.C119_map
#print axioms Verif.Props.C119_values_partial
#print axioms Verif.Props.C119_source_partial
#print axioms Verif.Props.C119_errors
#print axioms Verif.Props.C119_given_limits
#print axioms Verif.Props.C119_default_fails
#print axioms Verif.Props.C119_sequence_fails
#print axioms Verif.Props.C120_azimuth_partial
#print axioms Verif.Props.C120_azimuth_fails
#print axioms Verif.Props.C120_points
#print axioms Verif.Props.C120_sizes
#print axioms Verif.Props.C120_drawn
#print axioms Verif.Props.C120_errors
#print axioms Verif.Props.C120_caller
#print axioms Verif.Props.C121_points
#print axioms Verif.Props.C121_caller
#print axioms Verif.Props.C121_caller_fails
#print axioms Verif.Props.C122_azimuth
#print axioms Verif.Props.C122_azimuth_fails
#print axioms Verif.Props.C122_maps
#print axioms Verif.Props.C122_empty
#print axioms Verif.Props.C123_names
#print axioms Verif.Props.C123_meaning
#print axioms Verif.Props.C123_silent
#print axioms Verif.Props.C123_scale
#print axioms Verif.Props.C123_nls
#print axioms Verif.Props.C123_sad
#print axioms Verif.Props.C124_faces
#print axioms Verif.Props.C124_colors_partial
#print axioms Verif.Props.C124_colors_fail
#print axioms Verif.Props.C124_labels
#print axioms Verif.Props.C125_curves
#print axioms Verif.Props.C125_limits
#print axioms Verif.Props.C126_cells_partial
#print axioms Verif.Props.C126_ticks
#print axioms Verif.Props.C126_rows_fail
#print axioms Verif.Props.C126_groups
#print axioms Verif.Props.C127_points
#print axioms Verif.Props.C127_real
#print axioms Verif.Props.C127_inverse
#print axioms Verif.Props.C127_overlay_partial
#print axioms Verif.Props.C127_overlay_fails
#print axioms Verif.Props.C127_subplot_partial
#print axioms Verif.Props.C127_subplot_fails
#print axioms Verif.Props.C127_axes
#print axioms Verif.Props.C128_signals
#print axioms Verif.Props.C128_linear
#print axioms Verif.Props.C128_channels
#print axioms Verif.Props.C129_setup
#print axioms Verif.Props.C129_errors
#print axioms Verif.Props.C129_completes
#print axioms Verif.Props.C130_factors
#print axioms Verif.Props.C130_limits
#print axioms Verif.Props.C131_aspect
#print axioms Verif.Props.C131_points
#print axioms Verif.Props.C131_errors
#print axioms Verif.Props.C131_axes_partial
#print axioms Verif.Props.C131_axes_fails
#print axioms Verif.Props.C132_labels
#print axioms Verif.Props.C132_arrows
#print axioms Verif.Props.C132_options
#print axioms Verif.Props.C132_axes_partial
#print axioms Verif.Props.C132_axes_fails
#print axioms Verif.Props.C133_fails
#print axioms Verif.Props.C134_real
#print axioms Verif.Props.C134_complex
#print axioms Verif.Props.C134_given
#print axioms Verif.Props.C134_precomputed
#print axioms Verif.Props.C135_each
#print axioms Verif.Props.C135_vbap
#print axioms Verif.Props.C135_lattice
#print axioms Verif.Props.C135_scale
#print axioms Verif.Props.C135_epad
#print axioms Verif.Props.C135_design
#print axioms Verif.Props.C135_error_partial
#print axioms Verif.Props.C135_error_fails
#print axioms Verif.Props.C135_nls
#print axioms Verif.Props.C135_markers
#print axioms Verif.Props.C135_unknown
#print axioms Verif.Props.C136_neighbours
#print axioms Verif.Props.C136_bands
#print axioms Verif.Utils.C137_angle
#print axioms Verif.Utils.C137_invariant
#print axioms Verif.Utils.C137_triangle
#print axioms Verif.Props.C138_vbap
#print axioms Verif.Props.C138_panning
#print axioms Verif.Props.C138_nls
#print axioms Verif.Props.C138_setup
#print axioms Verif.Props.C138_pop
#print axioms Verif.Props.C138_order
#print axioms Verif.Props.C138_decoders
#print axioms Verif.Props.C139_vbap
#print axioms Verif.Props.C139_decoders
#print axioms Verif.Props.C139_nls
#print axioms Verif.Props.C139_setup
#print axioms Verif.Props.C139_pop
#print axioms Verif.Props.C139_edge_fails
#print axioms Verif.Props.C140_src_to_sh
#print axioms Verif.Props.C140_groups
#print axioms Verif.Props.C140_sht
#print axioms Verif.Props.C140_inverse_sht
#print axioms Verif.Props.C140_sht_lstsq
#print axioms Verif.Props.C140_rotate
#print axioms Verif.Props.C140_formats
#print axioms Verif.Props.C140_decoders
#print axioms Verif.Props.C140_scene
#print axioms Verif.Props.C140_binauralize_partial
#print axioms Verif.Props.C140_binauralize_loud
#print axioms Verif.Props.C140_binauralize_fails
#print axioms Verif.Props.C141_vbap
#print axioms Verif.Props.C141_panning
#print axioms Verif.Props.C141_nls
#print axioms Verif.Props.C141_distance
#print axioms Verif.Props.C141_order
#print axioms Verif.Props.C141_decoders
#print axioms Verif.Props.C141_setup
#print axioms Verif.Props.C141_pop
#print axioms Verif.Props.C141_normals_fail
#print axioms Verif.Props.C142_blocks
#print axioms Verif.Props.C142_transforms
#print axioms Verif.Props.C142_sht_lstsq
#print axioms Verif.Props.C142_decoders
#print axioms Verif.Props.C142_rotate
#print axioms Verif.Props.C142_formats
#print axioms Verif.Props.C142_delay
#print axioms Verif.Props.C142_overlap_partial
#print axioms Verif.Props.C142_overlap_loud
#print axioms Verif.Props.C142_overlap_fails
#print axioms Verif.Props.C143_harmonics
#print axioms Verif.Props.C143_encode
#print axioms Verif.Props.C143_twice
#print axioms Verif.Props.C143_decoders
#print axioms Verif.Props.C143_symmetric
#print axioms Verif.Props.C143_scene
#print axioms Verif.Props.C143_mirrored
#print axioms Verif.Props.C143_vbap
#print axioms Verif.Props.C143_nls
#print axioms Verif.Props.C143_setup
#print axioms Verif.Props.C143_normals_fail
#print axioms Verif.Props.C143_binauralize
#print axioms Verif.Props.C144_encode
#print axioms Verif.Props.C144_rotate
#print axioms Verif.Props.C144_formats
#print axioms Verif.Props.C144_decoders
#print axioms Verif.Props.C144_padding
#print axioms Verif.Props.C144_allrad
#print axioms Verif.Props.C144_lstsq_fails
#print axioms Verif.Props.C145_turned
#print axioms Verif.Props.C145_mirrored
#print axioms Verif.Props.C145_music_fails
#print axioms Verif.Props.C145_intensity
#print axioms Verif.Props.C145_b_format
#print axioms Verif.Props.C145_energy_vector
#print axioms Verif.Props.C146_mvdr
#print axioms Verif.Props.C146_lcmv
#print axioms Verif.Props.C146_separation
#print axioms Verif.Props.C146_music
#print axioms Verif.Props.C146_count_fails
#print axioms Verif.Props.C146_default_fails
#print axioms Verif.Props.C146_count_partial
#print axioms Verif.Props.C146_intensity
#print axioms Verif.Props.C146_energy_vector
#print axioms Verif.Props.C146_decay
#print axioms Verif.Props.C146_match
#print axioms Verif.Props.C146_itd
#print axioms Verif.Props.C147_signals
#print axioms Verif.Props.C147_filterbank
#print axioms Verif.Props.C147_lowest_fails
#print axioms Verif.Props.C147_alias_fails
#print axioms Verif.Props.C147_alias_partial
#print axioms Verif.Props.C147_hrirs
#print axioms Verif.Props.C147_rest
#print axioms Verif.Props.C148_split
#print axioms Verif.Props.C148_select
#print axioms Verif.Props.C148_jobs
#print axioms Verif.Props.C148_allrap
#print axioms Verif.Props.C148_harmonics
#print axioms Verif.Props.C148_analysis
#print axioms Verif.Props.C148_nearest
#print axioms Verif.Props.C149_superposition
#print axioms Verif.Props.C149_blocks
#print axioms Verif.Props.C149_silent
#print axioms Verif.Props.C149_one_direction
#print axioms Verif.Props.C149_equaliser
#print axioms Verif.Props.C149_ears
#print axioms Verif.Props.C149_stereo
#print axioms Verif.Props.C150_transforms
#print axioms Verif.Props.C150_weights
#print axioms Verif.Props.C150_cond
#print axioms Verif.Props.C150_nearest_partial
#print axioms Verif.Props.C150_tie_fails
#print axioms Verif.Props.C150_interaural
#print axioms Verif.Props.C150_ctf
#print axioms Verif.Props.C150_magls
#print axioms Verif.Props.C150_binaural_partial
#print axioms Verif.Props.C151_same_rotation
#print axioms Verif.Props.C151_all_rotations
#print axioms Verif.Props.C151_composition
#print axioms Verif.Props.C151_sequence
#print axioms Verif.Props.C151_undo
#print axioms Verif.Props.C151_product
#print axioms Verif.Props.C152_equal_angle_positive
#print axioms Verif.Props.C152_gauss_positive
#print axioms Verif.Props.C152_parseval
#print axioms Verif.Props.C152_projection
#print axioms Verif.Props.C152_best
#print axioms Verif.Props.C152_bessel
#print axioms Verif.Props.C152_lstsq
#print axioms Verif.Props.C152_complex
#print axioms Verif.Props.C153_corners
#print axioms Verif.Props.C153_loudspeaker
#print axioms Verif.Props.C153_continuous
#print axioms Verif.Props.C153_jump
#print axioms Verif.Props.C154_everywhere
#print axioms Verif.Props.C154_allrap2
#print axioms Verif.Props.C155_outer
#print axioms Verif.Props.C155_normal_limit
#print axioms Verif.Props.C155_inside
#print axioms Verif.Props.C156_order
#print axioms Verif.Props.C156_pipeline
#print axioms Verif.Props.C157_mono
#print axioms Verif.Props.C157_sh2bin
#print axioms Verif.Props.C157_blocks
#print axioms Verif.Props.C157_matrix
#print axioms Verif.Props.C157_turned
#print axioms Verif.Props.C158_local
#print axioms Verif.Props.C158_delay
#print axioms Verif.Props.C158_plane_wave
#print axioms Verif.Props.C159_max_directivity
#print axioms Verif.Props.C159_cardioid
#print axioms Verif.Props.C159_mvdr_diffuse
#print axioms Verif.Props.C159_mvdr_source
#print axioms Verif.Props.C159_lcmv_single
#print axioms Verif.Props.C160_separate
#print axioms Verif.Props.C160_music
#print axioms Verif.Props.C160_separate_default
#print axioms Verif.Props.C160_extract
#print axioms Verif.Props.C161_mad_least_squares
#print axioms Verif.Props.C161_mad_at_loudspeaker
#print axioms Verif.Props.C162_epad_closest
#print axioms Verif.Props.C162_epad_few
#print axioms Verif.Props.C163_mad_moments
#print axioms Verif.Props.C163_design_moments
#print axioms Verif.Props.C163_velocity
#print axioms Verif.Props.C164_order
#print axioms Verif.Props.C164_kept
#print axioms Verif.Props.C165_decoders
#print axioms Verif.Props.C165_beams
#print axioms Verif.Props.C165_filters
#print axioms Verif.Props.C165_binaural
#print axioms Verif.Props.C165_panning
#print axioms Verif.Props.C166_arriving_partial
#print axioms Verif.Props.C166_distances_fail
#print axioms Verif.Props.C166_nearest
#print axioms Verif.Props.C167_energy_vector
#print axioms Verif.Props.C168_frame
#print axioms Verif.Props.C168_isolated
#print axioms Verif.Props.C168_history
#print axioms Verif.Props.C168_failed_setup
#print axioms Verif.Props.C169_orientation_partial
#print axioms Verif.Props.C169_tilt_fails
#print axioms Verif.Props.C170_weights
#print axioms Verif.Props.C170_nothing_else
#print axioms Verif.Props.C171_sharpest
#print axioms Verif.Props.C171_everywhere
#print axioms Verif.Props.C172_sharpest_energy
#print axioms Verif.Props.C173_maxre
#print axioms Verif.Props.C174_scene
#print axioms Verif.Props.C175_field
#print axioms Verif.Props.C175_perfect
#print axioms Verif.Props.C175_energy
#print axioms Verif.Utils.C176_reached
#print axioms Verif.Utils.C176_smallest
#print axioms Verif.Utils.C177_regular
#print axioms Verif.Utils.C177_gimbal
#print axioms Verif.Utils.C177_normal_form
#print axioms Verif.Utils.C177_sh
#print axioms Verif.Props.C178_turned
#print axioms Verif.Props.C178_mirrored
#print axioms Verif.Props.C178_sectors
#print axioms Verif.Props.C179_commutative
#print axioms Verif.Props.C179_associative
#print axioms Verif.Props.C179_linear
#print axioms Verif.Props.C179_unit
#print axioms Verif.Props.C179_inner
#print axioms Verif.Props.C179_no_zero_divisors
#print axioms Verif.Props.C180_product
#print axioms Verif.Props.C180_errors
#print axioms Verif.Props.C181_cardioids
#print axioms Verif.Props.C181_beams
#print axioms Verif.Props.C182_reversed
#print axioms Verif.Props.C182_delays
#print axioms Verif.Props.C182_flat
#print axioms Verif.Props.C182_error
#print axioms Verif.Props.C182_sharp
#print axioms Verif.Props.C182_cascade
#print axioms Verif.Props.C182_linear_phase
#print axioms Verif.Sph.C183_shape
#print axioms Verif.Sph.C183_slope
#print axioms Verif.Sph.C183_order_zero
#print axioms Verif.Sph.C183_steep
#print axioms Verif.Sph.C183_wide
#print axioms Verif.Props.C184_slope
#print axioms Verif.Props.C184_lipschitz
#print axioms Verif.Props.C184_concave
#print axioms Verif.Props.C184_scale
#print axioms Verif.Props.C184_threshold
