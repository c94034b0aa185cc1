{
 "C05": {
  "status": "proved",
  "note": "proved as stated: rotation law above the threshold, identity at or below it, and the negation of R(k,-t)=R(k,t)^-1"
 },
 "C06": {
  "status": "proved",
  "note": "error iff cross product norm < 10e-15; between the error threshold and angle 10e-10 the identity is returned (C06_gap)"
 },
 "C21": {
  "status": "partial",
  "note": "false of the code at order 0 (C21_order_zero_raises, C21_rotateSh_order_zero_raises prove the ValueError); everything else in the statement is proved for all N >= 1, all types and all channel counts >= 2"
 },
 "C32": {
  "status": "partial",
  "note": "False of the code: C32_stale exhibits a history (vbap, pop_triangles, vbap) whose gains differ from a fresh setup. Proved for all histories in which pop_triangles does not follow vbap (C32_vbap_partial) and, for every history, which inverses are used (C32_first_call_partial)."
 },
 "C33": {
  "status": "partial",
  "note": "False of the code: C33_stale exhibits a setup whose order is 2 before and 1 after a vbap call (stored inverses are reused). Proved without stored inverses, and for unit-sphere layouts with the default simplices."
 },
 "C39": {
  "status": "partial",
  "note": "False of the code: C39_modified and C39_shared show caller arrays changed in place when numpy arrays and a listener position are passed (C39_effect gives the exact effect). Proved for sequences, without listener position, and for from_sph."
 },
 "C45": {
  "status": "partial",
  "note": "Proved for two or more channels and taps; order 0 and one-tap filters raise ValueError because of np.squeeze (C45_order_zero_fails, C45_one_tap_fails)."
 },
 "C48": {
  "status": "partial",
  "note": "False in general: conv with too few impulse responses and resample of a single channel break it (C48_conv_fails, C48_resample_mono_fails). Proved for every history with fitting arguments and two or more channels."
 },
 "C49": {
  "status": "partial",
  "note": "False after trim, conv, apply and ambeo_a2b with filters: the attributes are snapshots (C49_trim_fails, C49_ambeo_fails, C49_frozen). Proved after construction and resample."
 },
 "C52": {
  "status": "partial",
  "note": "The constructor accepts different tap counts for the ears (C52_constructor_fails). Proved for every history when the ears are given with equally many taps. With different tap counts a rejected apply_ctf_eq can leave only the left ear equalised (C52_equalise_half)."
 },
 "C54": {
  "status": "proved",
  "note": "Proved for every band count and overlap in [0, 0.5]; negative overlaps leave gaps (C54_negative_overlap_fails)."
 },
 "C57": {
  "status": "partial",
  "note": "Proved for floating point input; for integer arrays the result is truncated to integers, so linearity fails (C57_integer_fails)."
 },
 "C58": {
  "status": "partial",
  "note": "False at the first value: the normaliser is the trapezoidal rule while the curve is a plain sum (C58_first_value gives the exact value, C58_first_value_fails a witness). The decay is proved whenever the normaliser is positive."
 },
 "C60": {
  "status": "partial",
  "note": "False when t_pause differs from t_noise (the pause has the length of the noise), for pink noise with odd lengths and without fade (C60_pause_fails, C60_pink_odd_fails, C60_no_fade_fails). Proved for the remaining parameters, up to the common normalisation (C60_normalized)."
 },
 "C62": {
  "status": "proved",
  "note": "Proved for every worker count and interleaving when the workers share one lock; with a lock per worker updates can be lost (C62_own_locks_fail)."
 },
 "C63": {
  "status": "partial",
  "note": "The window ending exactly on the last sample is left out by the loop bound (C63_last_fails). Everything else is proved for every worker count, store order, odd window length and signal length."
 },
 "C69": {
  "status": "partial",
  "note": "Proved for one or more sources; with num_src = 0 the slice [:-0] is empty and every direction attains the maximum (C69_zero_sources_fails)."
 },
 "C71": {
  "status": "partial",
  "note": "False at some sampling rates: at 22050, 96000 and 192000 Hz the function raises AssertionError on every input (C71_rates_fail). Proved whenever the number of filter taps is odd, in particular at 44100 and 48000 Hz (C71_rates): slices, windows, unit gains and shape."
 },
 "C72": {
  "status": "partial",
  "note": "False of the code for every smoothing order of two or more: the unsmoothed gains are applied (C72_fails); orders below one raise IndexError (C72_order_zero). Proved for order one."
 },
 "C73": {
  "status": "partial",
  "note": "False of the code: the check for the end inspects the first returned column, so cut-off signal at the end goes unreported (C73_tail_fails, C73_tail2_fails) and a warning may be spurious (C73_spurious). Proved for the beginning."
 },
 "C81": {
  "status": "proved",
  "note": "The centre of the first band is outside it when the lowest edge is below 1 Hz (C81_low_fails), hence the proviso in the statement."
 },
 "C74": {
  "status": "partial",
  "note": "False of the code: the check compares against the module instead of the class and is never reached, so the file is written with the fs argument (C74_ignored, C74_fails). Proved: without contradiction the file has the signal's own rate (C74_rate_partial)."
 },
 "C78": {
  "status": "partial",
  "note": "False of the code from 402 kHz on, where an impulse falls outside the 256 taps and IndexError is raised (C78_high_rate_fails). Proved for all rates below 328 kHz (C78_dummy with C78_rates_partial), and between the two whenever the grid's extreme delays fit (C78_dummy); the offered default rates and the returned fs for all rates."
 },
 "C77": {
  "status": "proved",
  "note": "Given HRIRs that form a consistent non-empty set and at least one sample. With jobs_count below one a silent file is written (C77_no_jobs_fails), outside the statement."
 },
 "C76": {
  "status": "partial",
  "note": "False of the code in two ways: an imaginary loudspeaker preceding a real one shifts the gains (C76_gain_fails), and a layout loaded from a file with integer gains cannot be saved (TypeError, C76_integer_gains_fail). Proved: gains when imaginary loudspeakers come last (C76_gain_partial), missing keys (C76_missing), and the round trip save/load with explicit error bounds for setups with float gains (C76_roundtrip)."
 },
 "C83": {
  "status": "partial",
  "note": "False of the code: imaginary loudspeakers are not moved (C83_imaginary_fails). Proved for real loudspeakers, and for all of them without listener position (C83_partial)."
 },
 "C95": {
  "status": "partial",
  "note": "False of the code for signals with an odd number of samples (C95_odd_fails: the last bin loses its imaginary part). Proved for even lengths, where the first and last bin of a real signal are real."
 },
 "C98": {
  "status": "partial",
  "note": "false of the code in both directions: C98_inside_fails (a listener inside a long layout loses all faces in front) and C98_outside_fails; C98_ball characterises the check exactly, C98_central_partial gives the part that holds"
 },
 "C102": {
  "status": "proved",
  "note": "The documented energy preservation (energy one) is missed by the code: C102_not_unit shows the energy lies in [1/2, 1) because decoder.py line 891 uses 2(n+1) instead of 2n+1. Proved: the energy is the same for every direction (C102_energy)."
 },
 "C103": {
  "status": "partial",
  "note": "False of the code in two ways: two separate rims are not refused (C103_two_rims_fails), and the normals are weighted with the area twice (C103_direction_fails). Proved: the exact condition under which an error is raised (C103_errors), distance and direction of the position in general (C103_position), and the direction out of the hole when the weighted normals of the complete hull add up to zero (C103_hole_partial)."
 },
 "C107": {
  "status": "partial",
  "note": "False of the code: arrays with one common dimension are not stacked (C107_common_dimension_fails). Proved: the exact condition for success (C107_iff) and the result for equal shapes that are not square (C107_joins)."
 },
 "C111": {
  "status": "proved",
  "note": "Weights that are positive for every order would be expected; C111_positive_iff shows the exact order up to which they are. The constant 137.9 degrees is slightly larger than the first zero of the Bessel function J0."
 },
 "C116": {
  "status": "partial",
  "note": "False of the code for signals of different length: only the number of frequency lines is compared, so signals of four and five samples share one frequency axis (C116_unequal_fails), and the line at half the sampling rate is doubled, a deviation noted in the code (C116_edges). Proved: lines, axis and dB values of every fitting sinusoid (C116_sinusoid), rejected inputs (C116_lengths)."
 },
 "C117": {
  "status": "partial",
  "note": "False of the code with smoothing: the caller's list of labels grows by one entry, and a tuple of labels raises AttributeError (C117_labels_fail). Proved: axis, values, rejected lengths for all inputs, legend (C117_legend_partial)."
 },
 "C118": {
  "status": "partial",
  "note": "False of the code where the real part is negative: np.clip compares complex numbers by their real part first, so -1 is drawn as -280 dB with phase zero (C118_fails, C118_lost). Proved where all real parts exceed the floor (C118_partial)."
 },
 "C119": {
  "status": "partial",
  "note": "False of the code for more than 65536 samples that are no multiple: the last incomplete block is ignored (C119_tail_fails, all such lengths); and a linear map without limits changes the default limits of later calls (C119_default_fails). Proved: other lengths (C119_rms_partial, C119_source_partial), and for all inputs the drawn points and values (C119_map), given limits and errors."
 },
 "C120": {
  "status": "partial",
  "note": "False of the code for azimuths above 2 pi (drawn on the opposite side) and below -pi (drawn outside of the axes), C120_azimuth_fails; and the caller's azimuths change if one exceeds pi (C120_caller). Proved for azimuths from -pi to 2 pi (C120_azimuth_partial); order, sizes, colours and errors for all inputs."
 },
 "C121": {
  "status": "partial",
  "note": "False of the code with respect to the arguments: the caller's azimuth array is written to exactly if an azimuth exceeds pi (C121_caller, C121_caller_fails). All else proved."
 },
 "C122": {
  "status": "partial",
  "note": "False of the code for azimuths below -pi, which stay outside of the axes (C122_azimuth_fails). Proved from -pi on, and values and limits for all inputs; level differences are assumed to be finite."
 },
 "C124": {
  "status": "partial",
  "note": "False of the code with colours and invalid faces: the list of colours for all faces is handed to the collection of the valid ones, so colours move to other faces (C124_colors_fail). Proved if no face is invalid or marking is off (C124_colors_partial); faces, labels, limits and errors for all inputs."
 },
 "C126": {
  "status": "partial",
  "note": "False of the code if the number of signals is no multiple of num_groups: the last signal is not drawn (C126_rows_fail, all such numbers). Proved otherwise (C126_cells_partial); ticks and errors for all inputs."
 },
 "C127": {
  "status": "partial",
  "note": "False of the code for overlays of mixed types without sh_type, which draw real coefficients with complex harmonics (C127_overlay_fails), and for a subplot of one entry, which raises TypeError (C127_subplot_fails). Proved otherwise; sh_coeffs for all inputs."
 },
 "C131": {
  "status": "partial",
  "note": "False of the code for values of magnitude above one in direction of an axis: the axes are fixed to [-1, 1] (C131_axes_fails). Visibility proved for magnitudes up to one, everything else for all inputs."
 },
 "C132": {
  "status": "partial",
  "note": "False of the code for loudspeakers further than one metre from the listener, which lie outside of the fixed axes (C132_axes_fails). Everything else proved for all setups."
 },
 "C133": {
  "status": "partial",
  "note": "False of the code for all inputs: it asks for an attribute channel, which MultiSignal does not have (C133_fails)."
 },
 "C135": {
  "status": "partial",
  "note": "False for the Ambisonic renderers if 180 is not a multiple of ele_steps: in the row beyond 180 degrees the spherical harmonics (which see the cosine of the zenith angle) and the points (which see its sine) belong to opposite azimuths, so an error of twice the excess is drawn (C135_design; witness C135_error_fails). Everything else is proved in full; C135_error_partial is the claim for dividing steps."
 },
 "C136": {
  "status": "proved",
  "note": "The bins of an edge are rounded (floor for the edge, nearest for the half width), hence margins of 1.5 bins below and 0.5 bins above the transition."
 },
 "C140": {
  "status": "partial",
  "note": "False for binauralize, which drops loudspeakers whose signal never exceeds 10e-6 (C140_binauralize_fails); C140_binauralize_partial bounds the deviation and C140_binauralize_loud proves exact superposition when no loudspeaker is quiet without being silent. All other functions are proved in full."
 },
 "C141": {
  "status": "partial",
  "note": "False for the normals of small setups, because calculate_face_normals uses an absolute tolerance (C141_normals_fail). C141_setup proves the claim for setups none of whose facets is edge-on up to the tolerance in either unit, and assumes that the hull routine itself is unit free. C141_pop is for a listener at the origin, where the constructor places it. The rest is proved in full."
 },
 "C142": {
  "status": "partial",
  "note": "False for overlap and add with binauralize, which drops loudspeakers whose signal never exceeds 10e-6 within a block (C142_overlap_fails); C142_overlap_partial bounds the deviation, C142_overlap_loud proves equality when no loudspeaker is quiet without being silent. Everything else is proved in full."
 },
 "C146": {
  "status": "partial",
  "note": "False for estimate_num_sources and separate_cov by default (C146_count_fails, C146_default_fails): the variance is compared to an absolute threshold. C146_count_partial proves that, once neighbouring eigenvalues differ by more than the threshold, a higher level never lowers the estimate. All other parts are proved in full."
 },
 "C147": {
  "status": "partial",
  "note": "False for the centre frequency of the lowest band of frac_octave_filterbank (C147_lowest_fails: geometric mean with 1 Hz) and for its upper limit at odd sampling rates (C147_alias_fails: fs // 2). C147_alias_partial covers even rates; all other parts are proved in full."
 },
 "C150": {
  "status": "partial",
  "note": "False for directions equally near to two grid points with different responses (C150_tie_fails: the one listed first is used). C150_nearest_partial and C150_binaural_partial cover all other directions; the rest is proved in full."
 },
 "C166": {
  "status": "partial",
  "note": "The direction is wrong when the loudspeakers that play are at different distances (C166_distances_fail: distances enter the inverted triplets and the compensation). C166_arriving_partial proves the norm and the direction of the loudspeaker signals for all layouts, and the direction of what arrives for equal distances; C166_nearest is proved in full."
 },
 "C169": {
  "status": "partial",
  "note": "False for zenith offsets with loudspeakers off the front half of the median plane (C169_tilt_fails: looking up or down by a right angle renders front and back from the same direction, which no rotation or reflection of the head does). C169_orientation_partial proves azimuth offsets for all layouts, whole turns, and zenith offsets for loudspeakers at azimuth zero."
 }
}