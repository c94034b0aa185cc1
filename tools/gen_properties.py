#!/usr/bin/env python3
"""Writes /verif/properties.jsonl from the table below (keeps the JSON well formed)."""
import json, os
P = []
def add(title, statement, quantifier, why, *anchors):
    P.append(dict(id="C%02d" % (len(P)+1), title=title, statement=statement, quantifier=quantifier,
                  why_tests_cant=why, anchors=list(anchors)))
U, SPH, DEC, SIG, PRO, PAR, GRD, IO, PLT = ["spaudiopy/%s.py" % m for m in
    ("utils", "sph", "decoder", "sig", "process", "parsa", "grids", "io", "plot")]

# ---------------------------------------------------------------- utils
add("Cartesian/spherical round trip",
    "sph2cart(*cart2sph(x, y, z)) returns (x, y, z) for every point other than the origin; cart2sph(*sph2cart(azi, zen, r)) returns (azi, zen, r) for azi in (-pi, pi], zen in (0, pi), r > 0; the zenith is always in [0, pi], the azimuth in (-pi, pi] (in [0, 2*pi) with positive_azi=True, and then the same point is still recovered); steady_zen=True changes nothing when the radius is at least 10e-15.",
    "every real point other than the origin, every direction in the stated ranges, both values of positive_azi and steady_zen",
    "the suite checks eight corner points of a cube; the statement ranges over all of R^3 including the poles, the negative x axis and every octant boundary",
    U+":cart2sph", U+":sph2cart", U+":cart2dir", U+":dir2cart", U+":vec2dir")
add("Degree/radian conversion wraps into one turn and is its own inverse",
    "deg2rad(d) lies in [0, 2*pi), rad2deg(r) lies in [0, 360), both are periodic in one full turn, they multiply by pi/180 and 180/pi up to whole turns, rad2deg(deg2rad(d)) == d for d in [0, 360) and deg2rad(rad2deg(r)) == r for r in [0, 2*pi).",
    "every real angle, positive or negative, of any number of turns",
    "an unbounded range of angles with wrap-around at every multiple of a turn",
    U+":deg2rad", U+":rad2deg")
add("haversine is the central angle and a metric on directions",
    "haversine(azi1, zen1, azi2, zen2) equals the angle between the two unit vectors (the value angle_between gives for their Cartesian coordinates), is symmetric, lies in [0, pi], scales linearly with r and satisfies the triangle inequality.",
    "every pair (triple) of directions with arbitrary real azimuth and zenith",
    "a statement about all pairs and triples of points on the sphere; tests sample a few",
    U+":haversine", U+":angle_between", U+":dir2cart")
add("Euler rotation matrices are proper rotations",
    "rotation_euler(yaw, pitch, roll) is orthogonal with determinant 1, preserves lengths and dot products, is the identity for zero angles, and rotation_euler(yaw, pitch, roll) = Rz(yaw) Ry(pitch) Rx(roll) with one-axis rotations that add their angles.",
    "every triple of real angles",
    "a continuum of angles",
    U+":rotation_euler")
add("Axis-angle rotation",
    "rotation_rodrigues(k, theta) for every non-zero axis k and every theta > 10e-10 is orthogonal with determinant 1, leaves k fixed and turns every vector perpendicular to k by theta in the right-handed sense; for theta <= 10e-10, in particular for every negative angle, it returns the identity, so the law R(k, -theta) = R(k, theta)^-1 a user may expect does not hold.",
    "every axis and every real angle on both sides of the threshold",
    "continuum of axes and angles, plus the branch at 10e-10 that hides negative angles",
    U+":rotation_rodrigues")
add("Vector to vector rotation",
    "rotation_vecvec(f, t) raises ValueError exactly when the normalised vectors are (numerically) collinear, that is when the norm of their cross product is below 10e-15; otherwise, whenever the angle between them exceeds 10e-10, the result is a proper rotation that maps f/|f| to t/|t|.",
    "every pair of non-zero vectors",
    "all pairs of vectors, including nearly parallel ones",
    U+":rotation_vecvec", U+":rotation_rodrigues")
add("Decibel conversion round trip",
    "from_db(db(x, power), power) == |x| for x != 0 and db(from_db(y, power), power) == y, for both settings of power; db is additive over products and strictly monotone in |x|.",
    "every non-zero ratio x, every level y, both power settings",
    "continuum of inputs",
    U+":db", U+":from_db")
add("Channel interleaving is lossless and rejects mismatched input",
    "interleave_channels(l, r) has twice the rows, row 2i is l[i] and row 2i+1 is r[i], so that taking every other row recovers both inputs; arrays of different shape raise ValueError, and style='SSR' raises ValueError unless there are exactly 360 channels.",
    "every number of channels and samples and every content",
    "unbounded shapes",
    U+":interleave_channels")
add("One-dimensional coercion",
    "asarray_1d accepts an array exactly when at most one of its dimensions differs from 1, keeps all elements in order, returns an array with exactly one dimension, upgrades scalars to length one, and raises ValueError otherwise; it is idempotent.",
    "every array shape of every rank",
    "shapes of arbitrary rank",
    U+":asarray_1d")

# ---------------------------------------------------------------- sph: layout, conversions
add("ACN layout of orders",
    "repeat_per_order(c) for N+1 coefficients has length (N+1)**2 and its entry at ACN channel n**2 + n + m is c[n] for every order n <= N and degree |m| <= n; the columns of sh_matrix are in the same ACN order, and sh_matrix(N') begins with the columns of sh_matrix(N) when N <= N'.",
    "every SH order N and every (n, m)",
    "all orders; an off-by-one in the running column index would show only at some orders",
    SPH+":repeat_per_order", SPH+":sh_matrix")
add("SH order recovered from the channel count",
    "The order int(sqrt(K) - 1) used by every function that infers the order from K channels is N exactly when (N+1)**2 <= K < (N+2)**2; in particular it inverts K = (N+1)**2, and channel counts that are no perfect square are silently rounded down to the largest complete order.",
    "every channel count K >= 1",
    "all channel counts",
    SPH+":inverse_sht", SPH+":n3d_to_sn3d", SPH+":rotate_sh", DEC+":sad", DEC+":allrad", PAR+":sh_music")
add("N3D/SN3D conversion",
    "n3d_to_sn3d and sn3d_to_n3d are inverse to each other on signals with (N+1)**2 channels, scale channel n**2+n+m by 1/sqrt(2n+1) respectively sqrt(2n+1), leave the omnidirectional channel untouched, and with axis=1 do the same along the other axis.",
    "every SH order, number of samples, content and both axes",
    "all orders and signals",
    SPH+":n3d_to_sn3d", SPH+":sn3d_to_n3d")
add("First-order SH and B-format conversion",
    "b_to_sh(sh_to_b(F, w), w) == F and sh_to_b(b_to_sh(B, w), w) == B for every non-zero W weight (including the default None), the channel order goes from ACN (W, Y, Z, X) to (W, X, Y, Z), and W_weight scales only the W channel.",
    "every 4-channel signal of any length and every non-zero weight",
    "continuum of signals and weights",
    SPH+":sh_to_b", SPH+":b_to_sh")
add("B-format encoding of a plane wave agrees with the SH route",
    "sh_to_b(src_to_sh(s, azi, zen, N_sph=1)) == src_to_b(s, azi, zen): W carries the signal, X/Y/Z carry it scaled by the Cartesian components of the direction.",
    "every source signal and direction",
    "continuum of directions; relies on exact constants in both routes",
    SPH+":src_to_b", SPH+":src_to_sh", SPH+":sh_to_b", SPH+":sh_matrix")
add("Tetrahedral microphone encoding",
    "soundfield_to_b applied to the four samples, at the tetrahedron directions, of any first-order sound field with SH coefficients F returns sh_to_b(F): the four capsules recover every first-order field exactly. The directions are those of platonic_solid('tetra') or ('tetrahedron'), front left up first; it raises for other names.",
    "every first-order field, signal length and W weight",
    "continuum of fields",
    SPH+":soundfield_to_b", SPH+":platonic_solid", SPH+":sht")
add("Unit-amplitude modal weights",
    "unity_gain(w), hypercardioid_modal_weights(N), cardioid_modal_weights(N), maxre_modal_weights(N) and butterworth_modal_weights(N, k, n_c) satisfy sum_n (2n+1)/(4 pi) w_n = 1, i.e. a beam steered at a plane wave from the same direction returns it with amplitude exactly 1; unity_gain is idempotent and scale invariant.",
    "every SH order N and every weight vector whose steering gain is not zero",
    "all orders N: a closed-form sum identity that sampling orders cannot establish",
    SPH+":unity_gain", SPH+":hypercardioid_modal_weights", SPH+":cardioid_modal_weights", SPH+":maxre_modal_weights", SPH+":butterworth_modal_weights", SPH+":bandlimited_dirac")
add("The cardioid pattern is in phase",
    "bandlimited_dirac(N, d, cardioid_modal_weights(N)) == ((1 + cos d)/2)**N: the order-N cardioid is non-negative everywhere, has its maximum 1 in steering direction and a null of order N behind.",
    "every order N and every central angle d",
    "polynomial identity for all orders and angles",
    SPH+":cardioid_modal_weights", SPH+":bandlimited_dirac")
add("SH addition theorem for sh_matrix",
    "For real spherical harmonics of order n as computed by sh_matrix, sum over m of Y_nm(d1) Y_nm(d2) = (2n+1)/(4 pi) P_n(cos of the angle between d1 and d2); hence each row of sh_matrix(N) has squared norm (N+1)**2/(4 pi), and Y(d1) diag(repeat_per_order(w)) Y(d2)^T is bandlimited_dirac(N, angle, w).",
    "every order and every pair of directions",
    "all orders and a continuum of direction pairs",
    SPH+":sh_matrix", SPH+":bandlimited_dirac", DEC+":allrap", PAR+":sh_beamformer_from_pattern")
add("SH rotation matrices rotate sound fields",
    "sh_rotation_matrix(N, yaw, pitch, roll) @ Y(d) == Y(rotation_euler(yaw, pitch, roll) d) for every direction d: the recursively built matrix maps the SH vector of a direction to the SH vector of the rotated direction, and rotate_sh applied to an encoded source is the source encoded in the rotated direction.",
    "every order N >= 1, every rotation, every direction",
    "the recursion couples every order to the one below; tests cover three orders and 27 rotations",
    SPH+":sh_rotation_matrix", SPH+":rotate_sh", U+":rotation_euler")
add("SH rotation matrices are orthogonal and block diagonal",
    "sh_rotation_matrix(N, ...) is orthogonal for every N >= 1, is block diagonal with blocks of size 2n+1 at offset n**2 (orders never mix), keeps the energy per order, is the identity for zero angles, and rotations of order N contain those of lower order as leading blocks.",
    "every order and every rotation",
    "all orders of a recursion",
    SPH+":sh_rotation_matrix")
add("SH rotation is defined for every order a user can pass",
    "sh_rotation_matrix(N_sph, ...) returns an (N_sph+1)**2 square matrix for every order N_sph >= 0 with real SH, NotImplementedError for 'complex' and ValueError for any other type; rotate_sh accepts exactly channel counts that are perfect squares.",
    "every order including 0, every sh_type string, every channel count",
    "the suite only uses orders 1, 3, 5; the boundary order 0 is where it breaks",
    SPH+":sh_rotation_matrix", SPH+":rotate_sh")
add("SHT round trip on the provided quadrature grids",
    "For every band-limited function of order N, sht(inverse_sht(F, azi, zen), N, azi, zen, weights=w) == F on the grid gauss(N) and on equal_angle(N), for real spherical harmonics.",
    "every order N and every coefficient matrix F",
    "all orders and all functions: needs exact discrete orthogonality of spherical harmonics",
    SPH+":sht", SPH+":inverse_sht", GRD+":gauss", GRD+":equal_angle")
add("Least-squares SHT recovers band-limited functions",
    "sht_lstsq(inverse_sht(F, azi, zen, N), N, azi, zen) == F whenever the SH matrix of the grid has full column rank, and in general returns the minimum-norm least-squares coefficients.",
    "every grid, order and coefficient matrix",
    "all grids and functions",
    SPH+":sht_lstsq", SPH+":inverse_sht")
add("Spherical filter bank: perfect reconstruction",
    "For design_sph_filterbank(mode='perfect') on a sector grid that integrates products of order-N harmonics exactly with equal weights (a t-design), B @ A is the identity for every modal pattern with non-zero entries; mode='pinv' gives B @ A = I whenever A has full column rank; mode='energy' scales the same B by one common factor; any other mode raises ValueError.",
    "every order, every t-design grid, every pattern c_n without zeros",
    "all grids, orders and patterns",
    SPH+":design_sph_filterbank", SPH+":sph_filterbank_reconstruction_factor")
add("sh_mult multiplies functions on the sphere",
    "sh_mult(a, b) returns the (N1+N2+1)**2 coefficients whose order-(N1+N2) expansion equals the pointwise product of the two expansions (given an exact design grid), for every N1 + N2 between 1 and 10; for N1 + N2 = 0 and for N1 + N2 > 10 it raises ValueError.",
    "every pair of coefficient vectors and orders",
    "all orders; the lower boundary N1 = N2 = 0 is not tested",
    SPH+":sh_mult", GRD+":load_t_design")
add("Energy vector",
    "r_E(p, g) for unit loudspeaker directions has magnitude at most 1 for every gain vector, exactly 1 when a single loudspeaker is active, magnitude 0 (not NaN) for all-zero gains, is the mean of the directions weighted with the squared gains (hence within their convex hull), is invariant under common gain scaling, and mismatched sizes raise AssertionError.",
    "every number of loudspeakers and every gain vector",
    "continuum of gains and layouts",
    SPH+":r_E")

# ---------------------------------------------------------------- grids
add("Quadrature grids have the documented size and total weight",
    "equal_angle(n) returns (2n+2)**2 points, gauss(n) returns (n+1)(2n+2) points, the weights sum to 4 pi, all azimuths lie in [0, 2 pi) and zeniths in (0, pi); equal_polar_angle(n) returns 2n+1 equispaced angles whose weights sum to 1.",
    "every order n >= 0",
    "all orders n; needs a closed form of trigonometric sums",
    GRD+":equal_angle", GRD+":gauss", GRD+":equal_polar_angle")
add("Design loaders return the next available degree",
    "load_n_design / load_lebedev / load_maxDet(degree) return the tabulated design of the smallest tabulated degree >= the requested one (emitting one warning per skipped degree), raise ValueError below the lower bound, above the upper bound, and when no larger degree is tabulated; they always terminate. load_t_design accepts exactly 1..21 and load_Fliege_Maier_nodes exactly 2..30.",
    "every integer degree and every content of the data file",
    "every integer argument and every possible gap pattern of the table",
    GRD+":load_n_design", GRD+":load_lebedev", GRD+":load_maxDet", GRD+":load_t_design", GRD+":load_Fliege_Maier_nodes")

# ---------------------------------------------------------------- decoder
add("VBAP renders the source direction",
    "For every source, the gain row of vbap has at most three non-zero entries, all belonging to one valid simplex; before distance compensation they have unit p-norm and are all > -10e-6, and the gain-weighted sum of the loudspeaker vectors is a positive multiple of the source vector.",
    "every source position, every loudspeaker layout, every norm order, every list of valid simplices",
    "continuum of sources and layouts",
    DEC+":vbap", DEC+":_invert_triplets")
add("VBAP finds a triplet whenever one contains the source",
    "If a non-zero source lies in the cone of some valid, linearly independent simplex, vbap returns a non-zero row, chosen from the first such simplex (up to the -10e-6 tolerance); if the source lies outside all of them by more than the tolerance, the row is all zero; scaling the source by a positive factor does not change the gains.",
    "every source and layout",
    "continuum of sources; completeness of the search",
    DEC+":vbap")
add("VBAP is independent of jobs_count and of the schedule",
    "vbap(src, hull, jobs_count=n) returns the same gains for every number of worker processes and every interleaving of their writes into the shared array, and the same as the serial path.",
    "every worker count, every assignment of sources to workers, every interleaving of single-element writes",
    "a test runs a handful of schedules; the claim is about all interleavings",
    DEC+":vbap", DEC+":_vbap_gains_single_source", DEC+":_init_shared_array")
add("VBAP depends only on the current setup, not on earlier calls",
    "After any history of vbap calls and pop_triangles calls, vbap(src, hull) returns the gains of the current valid simplices of the hull, exactly as on a freshly built setup with those valid simplices.",
    "every history of vbap and pop_triangles calls on one LoudspeakerSetup",
    "a history property; tests call vbap on a fresh hull",
    DEC+":vbap", DEC+":LoudspeakerSetup.pop_triangles", DEC+":_invert_triplets")
add("The characteristic order depends only on the layout",
    "get_characteristic_order() returns the same value whether or not vbap has been called on the setup before, and never modifies the setup.",
    "every history of vbap and get_characteristic_order calls",
    "history property; depends on a shallow copy sharing a cache",
    DEC+":characteristic_ambisonic_order", DEC+":LoudspeakerSetup.get_characteristic_order", DEC+":vbap")
add("VBIP gains",
    "vbip gains are non-negative, each row has unit p-norm or is all zero, is non-zero exactly where the VBAP gain is positive, and the squared gains of a row are proportional to the positive part of the VBAP gains.",
    "every source, layout and norm",
    "continuum",
    DEC+":vbip")
add("pop_triangles only removes faces, and exactly the offending ones",
    "After pop_triangles(normal_limit, aperture_limit, opening_limit, blacklist) the valid simplices are a sub-list (as faces) of the ones before; a face survives iff it passes every limit that is not None and is not blacklisted; repeating the call changes nothing; a limit of None bypasses its check.",
    "every triangulation, every combination of limits",
    "all triangulations and limit combinations",
    DEC+":LoudspeakerSetup.pop_triangles", DEC+":check_normals", DEC+":check_aperture", DEC+":check_opening", DEC+":apply_blacklist")
add("Looser limits keep more faces",
    "Raising normal_limit, aperture_limit or opening_limit never removes additional faces. (Holds for limits in [0, 360); limits are wrapped into one turn, so a limit of 360 acts as 0, and an empty blacklist removes every face.)",
    "every pair of limits and every triangulation",
    "wrap-around is at a single boundary value tests do not hit",
    DEC+":check_normals", DEC+":check_aperture", DEC+":check_opening", DEC+":apply_blacklist", U+":deg2rad")
add("Face bookkeeping",
    "sort_vertices returns for every face the same three vertices, starting with the smallest index, with the cyclic orientation reversed; is_simplex_valid(s) is true exactly when some valid simplex has the same three vertices, whatever their order.",
    "every list of faces",
    "unbounded face lists, all orders of vertices",
    DEC+":sort_vertices", DEC+":LoudspeakerSetup.is_simplex_valid")
add("Face normals point outwards",
    "calculate_face_normals returns a vector perpendicular to the face with length twice the face area and whose dot product with the direction from the face centroid to the barycenter is at most eps (10e-6), independent of the orientation of the face; calculate_face_areas gives half the product of two edge lengths and the sine of the enclosed angle and is invariant under permutation of the vertices; deviations from centroids and barycenter cancel.",
    "every face of every layout",
    "continuum of layouts",
    DEC+":calculate_face_normals", DEC+":calculate_face_areas", U+":area_triangle", DEC+":calculate_centroids")
add("Building a LoudspeakerSetup does not modify the caller's arrays",
    "LoudspeakerSetup(x, y, z, listener_position) leaves x, y, z and listener_position as the caller passed them.",
    "every input array and listener position, including arrays that share memory",
    "aliasing: the defect is visible only in the caller's variables after the call",
    DEC+":LoudspeakerSetup.__init__", U+":asarray_1d")
add("Ambisonic rendering requires a prepared setup",
    "allrap, allrap2, allrad, allrad2 and vbap(retain_outside=True) raise ValueError before any computation unless ambisonics_setup() has completed on the setup; an ambisonics_setup() call that raises leaves kernel and ambisonic hull unset or as they were.",
    "every history of setup calls, successful or failing at any point",
    "crash points inside ambisonics_setup",
    DEC+":LoudspeakerSetup.ambisonics_setup", DEC+":allrap", DEC+":allrap2", DEC+":allrad", DEC+":allrad2", DEC+":vbap", DEC+":find_imaginary_loudspeaker")
add("ALLRAD of an encoded source equals ALLRAP",
    "Decoding a source encoded with src_to_sh at order N with allrad gives the allrap gains of that direction times the source signal; imaginary loudspeakers get no output; allrad is linear in the input.",
    "every source direction and signal, every layout, kernel grid and order",
    "continuum of directions, all layouts",
    DEC+":allrad", DEC+":allrap", SPH+":src_to_sh")
add("EPAD preserves energy",
    "For L >= (N+1)**2 loudspeakers, the output energy of epad is 4 pi/(N+1)**2 times the energy of the (truncated) input for every signal and every layout; a plane wave is thus rendered with the same energy from every direction.",
    "every layout with enough loudspeakers, every order, every signal",
    "continuum of layouts and signals",
    DEC+":epad")
add("MAD and SAD re-encode the sound field",
    "If the loudspeaker SH matrix has full column rank, encoding the mad loudspeaker signals at the loudspeaker directions gives sqrt(L)/(N+1) times the truncated input; for a t-design layout the same holds for sad up to its constant and sad and mad then differ only by a constant factor; both ignore input channels above order N and reject inputs of lower order.",
    "every layout, order and signal",
    "all layouts and signals",
    DEC+":mad", DEC+":sad")
add("Nearest loudspeaker selection",
    "nearest_loudspeaker activates exactly one loudspeaker per source, one whose direction has the smallest angle to the source (first index on ties), with gain d**a; scaling the source does not change the choice.",
    "every source and layout",
    "continuum",
    DEC+":nearest_loudspeaker")
add("Binaural rendering from SH signals",
    "sh2bin returns 2 rows of length S+L-1, each the sum over SH channels of the full linear convolution with that channel's filter; it is linear in the signal and in the filters; it rejects mismatched channel counts, and is defined for every order and filter length.",
    "every order, signal and filter length",
    "unbounded sizes; the squeeze breaks for singleton dimensions",
    DEC+":sh2bin")
add("Loudspeaker signal rendering",
    "loudspeaker_signals(gains, sig) is the (L, S) array of sig[s]*gains[s, l], with unit signal by default, and rejects a wrong number of loudspeakers; binauralize returns S+T-1 samples per ear, the sum over loudspeakers of the convolution of the 1/r**a attenuated signal with the nearest HRIR, skipping loudspeakers that never exceed 10e-6.",
    "every layout, signal, orientation",
    "unbounded sizes",
    DEC+":LoudspeakerSetup.loudspeaker_signals", DEC+":LoudspeakerSetup.binauralize")

# ---------------------------------------------------------------- sig
add("Trimming signals",
    "MonoSignal.trim(start, stop) keeps exactly the samples from int(start*fs) up to int(stop*fs) (or to the end), rejects a start at or beyond the end, dur overrides stop, consecutive trims compose, and MultiSignal.trim does the same to every channel.",
    "every signal, sampling rate and pair of times, every sequence of trims",
    "all histories and lengths; boundary and negative times",
    SIG+":MonoSignal.trim", SIG+":MultiSignal.trim", SIG+":trim_audio")
add("A MultiSignal stays a consistent multichannel signal",
    "After any sequence of trim, conv, apply and resample calls every channel of a MultiSignal has the same length and the number of channels is unchanged.",
    "every history of operations on every signal",
    "invariant over unbounded histories; resample of a one-channel signal and conv with too few filters break it",
    SIG+":MultiSignal.trim", SIG+":MultiSignal.conv", SIG+":MultiSignal.apply", SIG+":MultiSignal.resample", PRO+":resample_signal")
add("AmbiBSignal: W, X, Y, Z are the channels",
    "At any time the attributes W, X, Y, Z of an AmbiBSignal are the signals of its four channels, so analyses (pseudo_intensity, b_to_stereo) see the same audio as get_signals/save.",
    "every history of trim, conv, apply, resample calls",
    "history property; tests never analyse a trimmed signal",
    SIG+":AmbiBSignal", SIG+":MultiSignal.trim", PRO+":ambeo_a2b", PAR+":pseudo_intensity")
add("trim_audio works on a copy",
    "trim_audio(A, start, stop) leaves A unchanged and returns what A.trim(start, stop) would have produced; copies returned by copy() are independent of the original under every later operation on either.",
    "every signal and every later history of operations on either object",
    "aliasing over unbounded histories",
    SIG+":trim_audio", SIG+":MonoSignal.copy")
add("Nearest HRIR selection",
    "HRIRs.nearest_idx(azi, zen) is the first grid index with the smallest haversine distance to the direction, for scalar and array input; nearest_hrirs returns that row of both ears; a direction on the grid returns a grid point at distance zero.",
    "every grid and every direction",
    "continuum; dot product and haversine must induce the same order",
    SIG+":HRIRs.nearest_idx", SIG+":HRIRs.nearest_hrirs", U+":haversine")
add("HRIR set consistency",
    "Every HRIRs object has one left and one right response per direction and the same number of taps for both ears, num_samples equals that number, also after update_hrirs and apply_ctf_eq.",
    "every construction and history of updates",
    "histories; constructor accepts different tap counts",
    SIG+":HRIRs.__init__", SIG+":HRIRs.update_hrirs", SIG+":HRIRs.apply_ctf_eq")

# ---------------------------------------------------------------- process
add("Lagrange fractional delay",
    "lagrange_delay(N, d) has N+1 taps that sum to 1, is the unit impulse at d for integer 0 <= d <= N, and interpolates every polynomial of degree <= N exactly: sum_k h[k] q(k) = q(d).",
    "every order N, every real delay, every polynomial",
    "all orders, delays and polynomials",
    PRO+":lagrange_delay")
add("Fractional octave filter bank reconstructs",
    "For frac_octave_filterbank in 'energy' mode the squared gains, in 'amplitude' mode the gains, sum to exactly 1 at every frequency bin, and all gains lie in [0, 1]; an unknown mode raises ValueError.",
    "every band count, FFT size, sampling rate, overlap from 0 to 0.5 (the documented range) and slope for which the band edges fit the frequency axis",
    "all parameters and bins",
    PRO+":frac_octave_filterbank")
add("Soft gain clipping",
    "gain_clipping(g, t) for t > 0 leaves gains <= t unchanged, is strictly increasing, never exceeds the input and stays below 2*t.",
    "every gain and positive threshold",
    "continuum",
    PRO+":gain_clipping")
add("match_loudness never clips",
    "match_loudness returns a positive multiple of the input whose absolute values never exceed 1; when no normalisation was needed its loudest-channel RMS equals the target's.",
    "every non-silent input and target of any size",
    "continuum of signals",
    PRO+":match_loudness")
add("Fractional octave smoothing is a local weighted mean",
    "frac_octave_smoothing returns an array of the same length, each value lies between the minimum and maximum of the input over its window, constants are preserved, the window always contains the bin itself, and the operation is linear; weighted and unweighted.",
    "every input, every fraction",
    "all lengths and window sizes (empty windows would divide by zero)",
    PRO+":frac_octave_smoothing")
add("Energy decay curves decay",
    "energy_decay(p) is non-increasing in time and its first value is 0 dB.",
    "every impulse response",
    "continuum of signals",
    PRO+":energy_decay")
add("Half-sided Hann taper",
    "half_sided_Hann(N) for N >= 3 has N+1 weights in (0, 1], starts with ones and decreases at the end, and raises AssertionError for N < 3.",
    "every N",
    "all N, even and odd",
    PRO+":half_sided_Hann")
add("Pulsed noise has the requested duration",
    "pulsed_noise(t_noise, t_pause, fs, reps) is reps repetitions of int(fs*t_noise) noise samples followed by int(fs*t_pause) zeros.",
    "every duration, pause, rate and repetition count",
    "all parameter combinations with t_pause != t_noise, odd lengths",
    PRO+":pulsed_noise")
add("HRIR resampling is independent of jobs_count",
    "resample_hrirs gives the same result for every jobs_count >= 1 (None means cpu_count) and every schedule of the pool.",
    "every worker count and completion order",
    "all schedules",
    PRO+":resample_hrirs")

# ---------------------------------------------------------------- parsa
add("render_bsdm is independent of jobs_count and of the schedule",
    "render_bsdm returns for every number of workers and every interleaving of their read-modify-write steps the same responses as the serial loop (exact arithmetic), provided all workers share the lock; output sample t is the sum over i of p[i]*h_i[t-i].",
    "every worker count and every interleaving of individual loads and stores",
    "lost updates appear only in rare interleavings; the corresponding test is commented out",
    PAR+":render_bsdm", PAR+":_render_bsdm_sample", PAR+":lock")
add("pseudo_intensity is independent of jobs_count and of the schedule",
    "pseudo_intensity returns for every jobs_count and interleaving the same values as the serial loop; sample t of the unsmoothed intensity is the windowed integral of W*(X,Y,Z) centred on t wherever the whole window fits, and zero at the borders.",
    "every worker count, interleaving, window length and signal length",
    "all interleavings and lengths, including signals shorter than the window",
    PAR+":pseudo_intensity", PAR+":_intensity_sample")
add("Covariance separation",
    "separate_cov(S, k) for a symmetric S satisfies S_pp + S_nn = S; for 1 <= k < L and positive semidefinite S both parts are positive semidefinite, S_pp has rank at most k and S_nn has its k largest eigenvalues replaced by the next one.",
    "every covariance matrix and split point, including 0",
    "continuum of matrices; k = 0 selects everything",
    PAR+":separate_cov", PAR+":estimate_num_sources")
add("Source count estimate",
    "estimate_num_sources returns an integer between 0 and L-1, 0 when the eigenvalue variance is below the threshold; otherwise, if some ratio of consecutive eigenvalues exceeds the threshold, the number of eigenvalues above the first such jump.",
    "every ascending eigenvalue list and threshold",
    "all eigenvalue lists; no-jump case",
    PAR+":estimate_num_sources")
add("MVDR is distortionless and optimal",
    "For every invertible symmetric positive definite covariance, each row w of sh_mvdr satisfies w . Y(steer) = 1, and no other weight vector with unit response in that direction has smaller output variance w S w^T.",
    "every positive definite covariance and direction",
    "continuum; optimality is over all weight vectors",
    PAR+":sh_mvdr")
add("LCMV meets its constraints and is optimal",
    "sh_lcmv returns w with w . Y(dir_j) = c_gain[j] for every constraint, and minimal output variance among all such weights.",
    "every positive definite covariance, every set of linearly independent constraint directions",
    "continuum; optimality over all weight vectors",
    PAR+":sh_lcmv")
add("Beamforming a plane wave",
    "sh_beamform(sh_beamformer_from_pattern(p, N, dirs), src_to_sh(s, azi, zen, N)) equals s times the pattern evaluated at the angle between steering and source direction; with the built-in patterns a beam steered at the source returns exactly s; unknown pattern names raise ValueError and a wrong number of weights AssertionError.",
    "every order, pattern, steering direction and source",
    "all orders and directions",
    PAR+":sh_beamformer_from_pattern", PAR+":sh_beamform", SPH+":bandlimited_dirac")
add("MUSIC spectrum bounds",
    "sh_music returns positive values of at most 1/10e-12, and attains the maximum exactly in directions orthogonal to the noise subspace; every value is the inverse of the energy of the steering vector in the noise subspace plus 10e-12.",
    "every covariance, direction and number of sources",
    "continuum; num_src = 0 makes the noise subspace empty",
    PAR+":sh_music")
add("Stereo SDM rendering conserves pressure",
    "render_stereo_sdm gives ir_l + ir_r = p sample by sample, both panning gains lie in [0, 1], independent of the elevation; the left gain (1 + sin azimuth)/2 increases from right to left, is 1 at the left and 1/2 in front, and mirrored directions swap the ears.",
    "every pressure signal and direction sequence",
    "continuum",
    PAR+":render_stereo_sdm")
add("Post equalisation: block processing covers the signal",
    "In sdm_post_equalization every overlap-add slice lies inside the buffer, the windows sum to one over every sample of the padded signal region that is returned, so that unit equalisation gains pass the signal unchanged before band filtering, and the output has the shape of the input.",
    "every signal length, block size and band",
    "all lengths relative to block sizes",
    PAR+":sdm_post_equalization")
add("Block smoothing of the alternative post equalisation takes effect",
    "In sdm_post_equalization2 the gains applied to the audio are the smoothed band gains that are returned in band_gains_list.",
    "every signal and smoothing order",
    "needs comparing internal and returned gains over all blocks",
    PAR+":sdm_post_equalization2")
add("Truncation warning",
    "sdm_post_equalization and sdm_post_equalization2 warn whenever non-negligible signal is cut off at either end by the final truncation.",
    "every signal",
    "a warning that inspects the wrong column is invisible to value tests",
    PAR+":sdm_post_equalization", PAR+":sdm_post_equalization2")

# ---------------------------------------------------------------- io
add("save_audio rejects a contradicting sampling rate",
    "save_audio(signal, filename, fs) with a signal object whose fs differs from the fs argument raises instead of writing a file.",
    "every signal object and fs",
    "a dead type check (module compared against class)",
    IO+":save_audio")
add("load_audio assembles channels in order",
    "load_audio(files) returns the channels of all files in order, as a MonoSignal if there is exactly one channel in total and a MultiSignal otherwise, at the common sampling rate; files with differing rates, or a rate different from the requested one, raise.",
    "every list of files with any channel counts",
    "unbounded lists",
    IO+":load_audio")
add("Loudspeaker layouts survive save and load",
    "load_layout(save_layout(...)) restores every loudspeaker position up to the two-decimal rounding, the imaginary flags and the gain of each loudspeaker; loading keeps each real loudspeaker's gain attached to it whatever the position of imaginary loudspeakers in the file.",
    "every layout file",
    "all orders of real and imaginary loudspeakers",
    IO+":load_layout", IO+":save_layout")
add("SSR BRIR files",
    "write_ssr_brirs_loudspeaker and write_ssr_brirs_sdm write 720 channels in which channels 2a and 2a+1 are left and right ear for head orientation a degrees, scaled so that no sample exceeds 1 in magnitude and by one common factor, to a file name ending in '.wav'; the result does not depend on jobs_count >= 1.",
    "every signal, hrir set and file name",
    "all inputs and schedules",
    IO+":write_ssr_brirs_loudspeaker", IO+":write_ssr_brirs_sdm")
add("Dummy HRIRs",
    "load_hrirs(fs, 'dummy') produces a valid HRIR set with both ears' impulses inside the 256 taps for every sampling rate a user may ask for; the default set is offered for exactly 44100, 48000 and 96000 Hz and the returned set always has the requested fs.",
    "every sampling rate",
    "all rates",
    IO+":load_hrirs")
add("Real spherical harmonics are orthonormal and span polynomials",
    "The columns of sh_matrix(N, azi, zen), as functions of direction, are orthonormal under integration over the sphere, and their linear combinations are exactly the restrictions to the sphere of polynomials of degree at most N in the Cartesian coordinates.",
    "every order and every pair of indices",
    "integral identity over a continuum, every order",
    "spaudiopy/sph.py:sh_matrix")
add("Analytic grids integrate polynomials exactly",
    "sum(weights * p(directions)) over equal_angle(n) and gauss(n) equals the surface integral of p over the unit sphere for every polynomial p of degree at most 2n+1.",
    "every n and every polynomial",
    "all degrees and all polynomials",
    "spaudiopy/grids.py:equal_angle", "spaudiopy/grids.py:gauss")
add("Filter bank bands tile the spectrum",
    "The frequency table returned by frac_octave_filterbank is contiguous: the first band begins at 0, each band begins exactly where the previous one ends, the last one ends at fs/2; if the lowest band edge is above 1 Hz and below fs/2, every band is non-empty and its centre frequency lies strictly inside it.",
    "every band fraction n >= 1, sampling rate and frequency range",
    "all numbers of bands and all rates",
    "spaudiopy/process.py:frac_octave_filterbank")
add("What save_audio wrote, load_audio returns",
    "For a MonoSignal or MultiSignal with equally long, non-empty channels, load_audio of the file written by save_audio(signal, filename) returns the same samples, channel by channel and in the same order, at the same sampling rate (a single channel comes back as a MonoSignal, an AmbiBSignal as the MultiSignal of its channels W, X, Y, Z); save_audio warns about clipping exactly if a sample exceeds one in magnitude and about the channels exactly if they outnumber the samples, and rejects objects that are neither signals nor arrays. An array of n samples (times c channels) with a sampling rate comes back as the signal of its columns, arrays of more dimensions are rejected.",
    "every signal, channel count and length",
    "all shapes; a wrong transposition is invisible for symmetric data",
    IO+":save_audio", IO+":load_audio")
add("The listener position moves all loudspeakers of a layout",
    "load_layout(filename, listener_position=p) returns a setup in which every loudspeaker of the file, real or imaginary, is at its position in the file minus p, both in the setup itself and in its ambisonics_hull.",
    "every layout file and listener position",
    "relative positions of real and imaginary loudspeakers over all files",
    IO+":load_layout")
add("Grid weights integrate polynomials",
    "calculate_grid_weights(azi, zen, order) returns weights that integrate every polynomial of degree at most the order exactly over the sphere, sum to 4*pi and have the smallest norm among all such weights, whenever the spherical harmonics of that order are linearly independent on the grid; on a spherical 2*order-design all weights equal 4*pi/Q; the warning is given exactly if a weight is negative. Order 0 or less is rejected with AssertionError, and without order the function fails when the grid is ill conditioned already at order 1 or never becomes so.",
    "every grid of any size, every order, every polynomial",
    "all grids and all polynomials; optimality is a statement over all weight vectors",
    GRD+":calculate_grid_weights", SPH+":sh_matrix")
add("Interaural level differences",
    "For each direction, ilds_from_hrirs is positive exactly if the band-passed left response has more energy than the right one, zero exactly if both have the same; in dB it is 10*log10 of the energy ratio. Swapping the ears changes the sign, a gain at one ear shifts the dB value by that gain in dB and a common gain changes nothing; a silent ear gives an infinite value of the right sign, two silent ears nan.",
    "every HRIR set and every linear band-pass",
    "all responses and gains",
    PRO+":ilds_from_hrirs")
add("Interaural time differences",
    "If the (resampled, band-passed) right response is the left one delayed by d samples, d below half the length, itds_from_hrirs returns exactly d divided by the upsampled rate, positive if the right ear is later; swapping the ears changes the sign if the correlation has a unique maximum; the magnitude never exceeds half the response length. A silent ear yields the largest representable time difference, not zero.",
    "every HRIR set, resampler and band-pass",
    "all lengths, delays and signs; off-by-one errors at even and odd lengths",
    PRO+":itds_from_hrirs")
add("Sector beamformers are beams times velocity patterns",
    "sh_sector_beamformer(A) has four rows per sector: row 4*s+c steers to the sector beam of row s multiplied with 1, x, y or z of the direction, for every direction. Sectors of order 10 or more are rejected with ValueError.",
    "every number of sectors, order up to 9, every coefficient matrix and direction",
    "functional identity over the whole sphere",
    PAR+":sh_sector_beamformer", SPH+":sh_mult")
add("Mode strength and coloration compensation of the rigid sphere",
    "mode_strength(n, kr, 'rigid') is finite and non-zero for every order and kr other than 0 and equals 4*pi*i^(n-1)/(kr^2 * h_n2'(kr)). binaural_coloration_compensation is 1 at 0 Hz; when N_sph is at most ceil(kr) at the last frequency and the taper is within [0, 1] and not all zero, the gain is at least 1 at every frequency, and equal to 1 at a frequency other than 0 exactly if nothing is truncated or tapered. An empty frequency vector or a taper shorter than N_sph+1 raises IndexError, an unknown sphere type ValueError.",
    "every order, frequency vector, radius and taper",
    "zeros of Bessel functions are not hit by sampling; all orders",
    SPH+":mode_strength", SPH+":spherical_hn2", SPH+":pressure_on_sphere", SPH+":binaural_coloration_compensation")
add("Magnitude least squares binaural decoder",
    "Every channel returned by magls_bin has, up to a taper of the first 4 and last 32 taps (0 at both ends), the spectrum of coefficients that fit the HRTFs in the least squares sense below the frequency nearest to f_trans (600*N_sph by default), and above it fit targets with the magnitudes of the HRTFs and the phase rendered at the previous frequency plus a constant step; with independent steering vectors the rendered magnitudes equal those of the HRTFs. With hf_cont 'avg' or 'angle' a delay common to all directions is preserved exactly at all frequencies. A positive gain at an ear is a gain on its decoder, exchanging the ears exchanges the result. As many taps are returned as the HRIRs have, except that an odd number above 1024 loses the last. Unknown hf_cont and responses below 32 samples raise ValueError; 'avg' and 'angle' with fewer than 6 frequencies below f_trans (always so for order 0 by default) raise AssertionError.",
    "every HRIR set, order, transition frequency, continuation and delay",
    "optimality over all coefficient vectors; recursion over all frequencies",
    DEC+":magls_bin")
add("Common transfer function equaliser",
    "hrirs_ctf(hrirs, MIN_PHASE, freq_lims, grid_weights) returns num_samples taps. Without minimum phase they are the impulse response of the inverse of the colour of the set (weighted power mean over the directions, averaged over the ears, smoothed over an octave, relative to 1 kHz), faded into 1 by raised cosines below and above the limits, delayed by num_samples//2+1 and windowed; with minimum phase they come from the response with the squared amplitudes. A set with flat magnitudes yields a single impulse. A common gain, inverted polarity, exchanged ears or another order of the directions change nothing. Without grid_weights those of calculate_grid_weights for order 5 are used. Another number of weights than directions raises AssertionError.",
    "every HRIR set, weights and limits with at least five frequencies below 1 kHz",
    "spectral identity at all frequencies for all sets",
    PRO+":hrirs_ctf")
add("SOFA files",
    "load_sofa_hrirs returns, for every direction of the file, the responses of the first two receivers, the azimuth and zenith angle of the same direction (the file holds azimuth and elevation in degrees) and the sampling rate; radii that differ by 0.1 m or more on average and elevations above 90 degrees raise AssertionError, missing variables KeyError. sofa_to_sh returns for every sample the least squares fit of (N+1)^2 coefficients, which is exact for responses of that order on directions that determine the coefficients, real and complex; other types raise ValueError.",
    "every file with at least two directions, receivers and samples",
    "all contents; a file with one direction is rejected with IndexError",
    IO+":load_sofa_hrirs", IO+":load_sofa_data", IO+":sofa_to_sh")
add("SDM files",
    "load_sdm returns the signal h_ref (or else p), azimuth sdm_azi (or sdm_phi), zenith sdm_zen (or sdm_theta) and the sampling rate. With init_nan no returned direction is nan: missing azimuths become 0, missing zeniths pi/2, everything else is unchanged; without it nan are kept. A file without one of the four raises KeyError.",
    "every file content",
    "all combinations of variables and nan positions",
    IO+":load_sdm")
add("Transforms with complex spherical harmonics",
    "sh_matrix(N, azi, zen, 'complex') holds Y_n^m of direction q in row q, column n^2+n+m. sht with the weights of equal_angle(N) or gauss(N), or without weights on a spherical design of strength 2N, and sht_lstsq on any such grid, return exactly the complex coefficients inverse_sht rendered. The sum over m of Y_n^m(d1) conj(Y_n^m(d2)) is (2n+1)/(4 pi) P_n(cos of the angle). For real samples, any grid and weights, the coefficient of (n,-m) is (-1)^m times the conjugate of that of (n,m), and inverse_sht renders the same values from 'complex' as from 'real' coefficients.",
    "every order, coefficient matrix, grid of the named kinds and direction",
    "exactness for all orders and coefficients",
    SPH+":sh_matrix", SPH+":sht", SPH+":inverse_sht", SPH+":sht_lstsq")
add("Default HRIR sets",
    "After get_default_hrirs(azi, zen), or in load_hrirs(fs) itself when no default file exists, load_hrirs(fs) for 44100, 48000 and 96000 Hz returns the set at that rate with the directions of the grid in order (gauss(35) by default) and, for either ear and direction, the impulse response whose spectrum is the SH expansion of the source at that direction, resampled from the rate of the source for 48000 and 96000 Hz and unchanged for 44100 Hz, for every jobs_count >= 1. On the default grid sht of the spectra returns the coefficients of the source at every frequency between the first and the last. One grid angle without the other raises TypeError, different numbers of frequencies AssertionError.",
    "every source, grid of two or more directions, number of jobs and order of completion",
    "end to end through expansion, inverse transform, pool, file and loader",
    IO+":get_default_hrirs", IO+":load_hrirs", PRO+":resample_hrirs")
add("Resampling of spectra",
    "resample_spectrum returns, for stacked spectra of at least two bins, the spectra of the resampled impulse responses, L//2+1 bins for L resampled samples; a single spectrum is returned one-dimensional. At unchanged rate it returns the spectra of real signals as they are. Fewer than two bins raise ValueError.",
    "every stack of spectra and pair of rates",
    "all spectra; odd lengths are not preserved",
    PRO+":resample_spectrum")
add("Subband levels",
    "subband_levels returns per band sqrt(fs/(2 width) sum |x|^2), and with power=True the square of that divided by the number of samples: scaling a band by c scales its level by |c| and no other band; a flat band has the same level whatever the number of its bins; the squared levels of the bands of frac_octave_filterbank, weighted with the band widths, add up to fs/2 times the energy of the spectrum.",
    "every subband signal, width and rate",
    "all spectra and filter banks",
    PRO+":subband_levels", PRO+":frac_octave_filterbank")
add("The alternative post equalisation never amplifies",
    "All band gains sdm_post_equalization2 applies or returns lie between 0 and 1. If every loudspeaker plays the reference times a panning gain c_l, the gain of a band in which the reference is not silent is 1/sum|c_l/d_l^a| in the lowest band and 1/sqrt(sum (c_l/d_l^a)^2) from the fourth band on, each at most 1, and in between in the second and third band.",
    "every signal, setup, block size and smoothing order",
    "all signals and blocks",
    PAR+":sdm_post_equalization2", PRO+":subband_levels")
add("Faces around the listener",
    "A LoudspeakerSetup considers by default those faces valid that face the listener, so that for a listener inside the hull all faces are valid and for one outside some are not.",
    "every loudspeaker layout, triangulation and listener position",
    "all layouts; a face is dropped exactly if its centre lies inside the ball spanned by listener and mean loudspeaker position",
    DEC+":LoudspeakerSetup.__init__", DEC+":check_listener_inside")
add("Vertex normals point outwards",
    "calculate_vertex_normals of a hull without faces coplanar with the barycenter gives every vertex of a face a normal with positive dot product with the direction from the barycenter to that vertex, of unit length with normalize=True; points that are not vertices of the hull get zero.",
    "every layout, triangulation and epsilon >= 0",
    "all layouts",
    DEC+":calculate_vertex_normals", DEC+":calculate_face_normals")
add("Binaural rendering of a spatial impulse response on loudspeakers",
    "render_binaural_loudspeaker_sdm(p, gains, setup, fs, None) is the binaural signal of the loudspeaker signals p[s] gains[s, l]: the sum over all loudspeakers not silent of their signals, attenuated by distance, convolved with the nearest HRIR. A post equalisation function receives those loudspeaker signals and its result is rendered instead; its exceptions are passed on. A different number of gains and samples, or of gain columns or equalised rows and loudspeakers, raises AssertionError.",
    "every signal, gain matrix, setup, HRIR set and post equalisation function",
    "all signals, setups and functions",
    PAR+":render_binaural_loudspeaker_sdm", DEC+":LoudspeakerSetup.loudspeaker_signals", DEC+":LoudspeakerSetup.binauralize")
add("File methods of the signal classes",
    "MonoSignal.from_file accepts exactly files with one channel, MultiSignal.from_file exactly those with several (ValueError otherwise), AmbiBSignal.from_file exactly those with four (ValueError for one channel, AssertionError for other numbers); the channels keep their order and the rate is that of the file. A requested fs that differs from the file raises ValueError. x.save(f) followed by type(x).from_file(f) returns x for a MonoSignal, a MultiSignal of two or more equally long channels and an AmbiBSignal including W, X, Y and Z; a MultiSignal with a single channel can only be read back as MonoSignal.",
    "every file content, signal and requested rate",
    "all signals and channel counts",
    SIG+":MonoSignal.from_file", SIG+":MultiSignal.from_file", SIG+":AmbiBSignal.from_file", SIG+":MonoSignal.save", IO+":save_audio")
add("Energy of AllRAP2 gains",
    "allrap2 is said to be an energy preserving variant of AllRAP. The energy of its gains is the same for every source direction, the real number E(N) = sum (2n+1) P_n^2 / sum (2n+2) P_n^2 with the max-rE weights P_n, at most that with imaginary loudspeakers, for every kernel that is a design of sufficient strength.",
    "every layout, kernel design of strength 2N, order and source direction",
    "all layouts and directions; the normalisation uses 2(n+1) where 2n+1 is needed, so the energy is below one (between 1/2 and 1)",
    DEC+":allrap2")
add("The imaginary loudspeaker fills the hole",
    "find_imaginary_loudspeaker returns the position of one loudspeaker at the mean distance of the rim, outwards through the hole left by the removed faces (opposite to the area weighted normals of the remaining faces); it rejects a closed hull and more than one rim.",
    "every layout and set of removed faces",
    "all layouts and hole shapes",
    DEC+":find_imaginary_loudspeaker")
add("VBAP with retained outside sources",
    "vbap(src, hull, retain_outside=True) pans on the hull with the imaginary loudspeaker and drops its gain: a source in a real face gets its usual gains, one in a face of the imaginary loudspeaker keeps the gains of the real corners without renormalisation, so that it fades towards the hole and, with loudspeakers at equal distance, its energy never exceeds one; simplices given by the caller raise AssertionError, a setup without Ambisonic hull or without imaginary loudspeakers ValueError.",
    "every layout, imaginary loudspeaker, source and norm",
    "all layouts and source directions",
    DEC+":vbap", DEC+":LoudspeakerSetup.ambisonics_setup")
add("Convolving signals",
    "MonoSignal.conv(h) replaces the samples by the linear convolution with h and keeps the rate: all len(x)+len(h)-1 samples by default, the len(x) samples from (len(h)-1)//2 on with mode='same', those of complete overlap with mode='valid'; empty operands raise ValueError. MultiSignal.conv(irs) does so channel by channel; channels without a filter keep their samples and filters without a channel are not used.",
    "every signal, filter list and mode",
    "all lengths and modes",
    SIG+":MonoSignal.conv", SIG+":MultiSignal.conv")
add("Stereo downmix of B-format",
    "b_to_stereo returns L = W + (X+Y)/sqrt(2) and R = W + (X-Y)/sqrt(2) sample by sample; mirroring the sound field left to right swaps the channels; a horizontal plane wave from azimuth phi appears with gains 1+cos(phi-45 deg) and 1+cos(phi+45 deg).",
    "every B-format signal and direction",
    "all signals and directions",
    PRO+":b_to_stereo")
add("Stacking two arrays",
    "stack joins two two-dimensional arrays along the same-sized or the smaller dimension, the first array first, and raises ValueError if they have no common dimension.",
    "every pair of arrays",
    "all shapes; in fact only equal shapes that are not square are accepted",
    U+":stack")
add("RMS level",
    "rms(x)**2 times the number of samples is the energy of x; rms lies between the smallest and the largest sample magnitude, is zero exactly for silence, and a gain c multiplies it by |c|, i.e. raises db(rms(x)) by db(c).",
    "every non-empty signal and gain",
    "all signals",
    U+":rms", U+":db")
add("test_diff is a distance",
    "test_diff of arrays of equal size is the sum of the magnitudes of their differences: symmetric, zero exactly for equal arrays, obeying the triangle inequality, and reported when it exceeds the limit. A single value is compared with every element; other different sizes raise ValueError.",
    "every pair of arrays and limit",
    "all sizes and values",
    U+":test_diff")
add("Energy vector of weighted panning functions",
    "For the gains g = bandlimited_dirac(N, angle to the source, w_n) of loudspeakers on a design of strength 2N+1, r_E points to the source (or away from it) with magnitude depending on w_n only: |sum (n+1) 2 w_n w_(n+1)| / sum (2n+1) w_n^2, the sums up to the order. Its largest value over all weights is the largest root of the Legendre polynomial P_(N+1), reached by w_n = P_n of that root; the value for max_rE_weights(N) is given in closed form.",
    "every design, order, weights and source direction",
    "all designs, weights and directions; optimality over a continuum of weights",
    SPH+":max_rE_weights", SPH+":r_E", SPH+":bandlimited_dirac")
add("Shape of the max-rE weights",
    "max_rE_weights(N) returns N+1 weights starting at one that strictly decrease with the order; all are positive exactly for N <= 1224, and for higher orders the last one is negative.",
    "every order",
    "all orders; the sign changes between orders 1224 and 1225, where the last weight is about 8e-9",
    SPH+":max_rE_weights")
add("Decoding on designs keeps the direction",
    "A source encoded by src_to_sh and decoded by sad, mad or epad on loudspeakers forming a design of strength 2N+1 has an energy vector pointing to the source with magnitude N/(N+1); with weights per order applied before decoding the magnitude is that of C110. Rotating the sound field with rotate_sh before decoding rotates the energy vector.",
    "every loudspeaker design, order, signal, direction and rotation",
    "all designs, directions and rotations",
    DEC+":sad", DEC+":mad", DEC+":epad", SPH+":src_to_sh", SPH+":r_E", SPH+":rotate_sh")
add("Projection on the sphere",
    "project_on_sphere(x, y, z) of a point other than the origin is the point divided by its distance: it lies on the unit sphere, is the closest point of the sphere, depends on the direction only, and projecting again changes nothing.",
    "every point except the origin",
    "all points",
    SPH+":project_on_sphere", U+":cart2sph", U+":sph2cart")
add("Condition number of a grid",
    "check_cond_sht returns the condition number of the Gram matrix of the spherical harmonics: at least one, one on designs of strength 2N for real and complex harmonics, infinite with fewer points than coefficients, unchanged by rotating the grid. It bounds the error of sht_lstsq: disturbing the samples of a band limited function changes the coefficients by a squared relative error of at most the condition number times that of the samples. The message appears exactly above the limit; the default limit reports order zero always and no other order on designs.",
    "every grid, order, limit, coefficients and disturbance",
    "all grids and disturbances",
    SPH+":check_cond_sht", SPH+":sht_lstsq")
add("Indexing and building signal objects",
    "len, indexing (also from the end), signal and channel access of MonoSignal, MultiSignal and HRIRs return the samples, channels or responses they were built from and raise IndexError outside; MultiSignal keeps one rate for all channels; assigning signal keeps the rate or raises without a change; resample sets the new rate; AmbiBSignal.sh_to_b maps ACN channels to W, X, Y, Z with their factors and rejects everything but four equally long channels.",
    "every signal object, index, array and rate",
    "all lengths and indices, including every error path",
    SIG+":MonoSignal", SIG+":MultiSignal", SIG+":AmbiBSignal.sh_to_b", SIG+":HRIRs")
add("Lines of plot.spectrum",
    "A sinusoid of amplitude A that fits the signal is drawn as one line of height |A| at its frequency and nothing else; a constant has its magnitude at 0 Hz; scale_mag multiplies by half the number of samples; the frequency axis fits every drawn signal, signals of different length are rejected.",
    "every length, frequency, amplitude and phase",
    "all lengths and frequencies",
    PLT+":spectrum")
add("Curves and legend of plot.freq_resp",
    "The drawn curves are the magnitudes in dB, not below -280 dB, or the values themselves; the default vertical axis ends at the largest value and spans ylim; magnitudes and frequencies of different length are rejected; the legend shows the given labels, which the call leaves unchanged.",
    "every frequency list, magnitudes, labels and options",
    "all inputs, including the arguments after the call",
    PLT+":freq_resp")
add("plot.transfer_function shows magnitude and phase",
    "The curves are 20 log10 of the magnitude and the unwrapped phase of the transfer function, limited to -280 dB.",
    "every complex transfer function",
    "a continuum of complex values",
    PLT+":transfer_function")
add("RMS map of an Ambisonic signal",
    "sh_rms_map draws, for every direction of the grid and the poles, the RMS of the beamformer over the whole signal: with the default weights a single source is drawn with the RMS of its signal in its own direction and nowhere more. Wrong numbers of channels or weights are rejected. Colour limits are those given, and a call does not influence later calls.",
    "every signal, order, length, weights, limits and sequence of two calls",
    "all lengths (the loop over blocks starts above 65536 samples), orders and directions, state carried between calls",
    PLT+":sh_rms_map", SPH+":hypercardioid_modal_weights", SPH+":sh_matrix")
add("Points of plot.doa",
    "Every direction of arrival is drawn inside the axes at its azimuth modulo a full turn; points are drawn from last to first, sizes are proportional to the pressure with the largest at the given size, colours are the time in ms; arrays of different lengths are rejected; the arguments are left unchanged.",
    "every list of directions, pressures, colours, size and sampling rate",
    "all azimuths of any number of turns, and the arguments after the call",
    PLT+":doa")
add("Points of plot.spherical_function_map",
    "The map shows every value (in dB if asked) at its direction, with azimuths from -pi to 3 pi inside of (-pi, pi]; plotting again gives the same points, and the arguments are left unchanged.",
    "every function, directions and scale",
    "a continuum of azimuths, and the arguments after the call",
    PLT+":spherical_function_map")
add("Interaural maps of an HRIR set",
    "hrirs_ild_itd draws the level difference in dB and the time difference in ms of every direction of the set, with azimuths inside of [-pi, pi) and colour limits symmetric about zero, which are the given ones or the largest magnitude.",
    "every HRIR set and limits",
    "all directions and values",
    PLT+":hrirs_ild_itd")
add("Measures of plot.decoder_performance",
    "The renderer is selected by its documented name in any case, other names raise ValueError. Amplitude and energy are the sums of gains and squared gains; the cosine of half the spread is the length of the energy vector of the gains without distance compensation, the error is its angle to the direction of the source. Both do not depend on the level. Nearest loudspeaker selection has no spread and the smallest angle to a loudspeaker as error; the sampling decoder on a design of strength 2N+1 has the spread 2 arccos(N/(N+1)) and no error in every direction.",
    "every setup, gains, direction, order and design",
    "a continuum of directions and gains",
    PLT+":decoder_performance", DEC+":nearest_loudspeaker", DEC+":sad")
add("Faces, colours and labels of plot.hull",
    "Every face of the hull is drawn once, filled if valid, else dashed; face j has the colour j; a wrong number of colours raises AssertionError; loudspeakers are labelled with their index at their position, inside of the default axes.",
    "every setup, faces, colours and limits",
    "all setups and subsets of valid faces",
    PLT+":hull")
add("Curves of plot.polar",
    "Every value is drawn exactly once at its angle: non-negative ones on the first curve, negative ones with their magnitude on the second, in dB if asked; the radial axis is the given one or the documented default.",
    "every list of angles and values",
    "all values and signs",
    PLT+":polar")
add("Cells of plot.sh_bar",
    "Every coefficient of every signal is drawn exactly once with its (absolute, dB) value at the position of its group and channel; positions increase from signal to signal.",
    "every number of signals, channels and groups",
    "all numbers of signals and groups",
    PLT+":sh_bar")
add("Surfaces of spherical harmonics coefficients",
    "sh_coeffs draws every direction at the distance of the magnitude of the inverse transform, coloured by its phase; real coefficients have phase zero or pi. sh_coeffs_overlay and sh_coeffs_subplot draw every entry as sh_coeffs draws it, with its title; too few titles raise IndexError.",
    "every list of coefficients, type, grid and titles",
    "a continuum of directions, all numbers of entries",
    PLT+":sh_coeffs", PLT+":sh_coeffs_overlay", PLT+":sh_coeffs_subplot")
add("Signals of allrad2",
    "Decoding a source encoded with src_to_sh at order N with allrad2 gives every loudspeaker the sum over the kernel directions of its allrap2 gain there times the order-limited plane wave 1/J sum (2n+1) P_n(cos angle) of the source; allrad2 is linear in the input. allrad and allrad2 give no output for an input without exactly (N+1)**2 channels: a different order raises AssertionError and changes nothing, surplus channels raise ValueError.",
    "every source direction and signal, every layout, kernel grid and order, every number of channels",
    "continuum of directions, all layouts and channel counts",
    DEC+":allrad2", DEC+":allrap2", DEC+":allrad", SPH+":src_to_sh")
add("What ambisonics_setup prepares",
    "A completed ambisonics_setup() stores as Ambisonic hull the hull of the loudspeakers followed by the imaginary ones (none without update_hull, the given positions, or the one found by find_imaginary_loudspeaker), as kernel the design of degree 2 N_kernel, and as characteristic order the given one or that of the layout; it completes exactly if an order is given or can be computed, N_kernel is given, the needed imaginary loudspeaker exists, and both hulls and the design exist.",
    "every layout, option and set of imaginary loudspeakers",
    "all layouts and combinations of options",
    DEC+":LoudspeakerSetup.ambisonics_setup", DEC+":find_imaginary_loudspeaker", GRD+":load_n_design")
add("Zeros and poles drawn",
    "zeropole() draws all roots of numerator and denominator with their multiplicities: at every point of the plane the polynomial with the given coefficients is its first coefficient other than zero times the product of the differences to the drawn zeros (poles); in the z plane the unit circle is drawn and visible, and nothing matplotlib would show is cut off.",
    "every pair of coefficient lists and limits",
    "polynomials of all degrees and all points of the plane",
    PLT+":zeropole")
add("Function on the sphere drawn as points",
    "spherical_function() draws every value in its direction, at the distance of its magnitude, coloured by the value; the colour range is the smallest that includes all values, 0 and 1; all drawn points are visible.  set_aspect_equal3d() sets the smallest common limits that include those of all axes.",
    "every list of values and directions",
    "all values, directions and limits",
    PLT+":spherical_function", PLT+":set_aspect_equal3d", U+":sph2cart")
add("Normals drawn with a setup",
    "hull_normals() labels every loudspeaker with its number at its position, draws for every face an arrow from its centroid that is perpendicular to it and does not point inwards, for every vertex an arrow that points away from the barycenter, and all of it is visible; either kind of arrow can be left out.",
    "every setup",
    "all layouts, also degenerate or distant ones",
    PLT+":hull_normals", PLT+":set_aspect_equal3d", DEC+":calculate_face_normals", DEC+":calculate_vertex_normals")
add("Comparison of A and B format signals",
    "compare_ambi() draws the first four channels of both signals over time.",
    "every pair of multichannel signals",
    "it is not called by any test",
    PLT+":compare_ambi", SIG+":MultiSignal")
add("Order used by the inverse transform",
    "inverse_sht(F, azi, zen, sh_type, N_sph=N) evaluates the first (N+1)^2 channels of F and ignores the rest; with fewer channels it raises ValueError; without N_sph it uses the largest full order contained in the channels. A given Y_nm is applied to the same channels, succeeds exactly when it has as many columns as channels are kept (all of them if there are fewer than (N+1)^2), and changes nothing if it is the SH matrix of that order.",
    "every coefficient matrix, set of directions, order and matrix, real or complex",
    "all numbers of channels and orders",
    SPH+":inverse_sht", SPH+":sh_matrix")
add("Figure of plot.decoder_performance",
    "decoder_performance draws its four measures at all azimuths -180 + i*azi_steps and zenith angles j*ele_steps (degrees) up to one step beyond 180, each value belonging to the direction at which it is drawn, namely the measures of the gains the chosen renderer gives for that direction alone (at order N_sph or else the characteristic order): epad with enough loudspeakers shows unit energy everywhere, as do VBAP and VBIP on loudspeakers at unit distance whose triplets cover the sphere, nearest loudspeaker selection no spread and the smallest angle to a loudspeaker, and the Ambisonic decoders on designs no angular error. Amplitude and energy are never clipped from above, spread and error are clipped at 90 degrees, loudspeakers are marked at their directions; an unknown renderer is a ValueError and leaves the setup alone.",
    "every setup, renderer, steps and order",
    "all step sizes; the default steps divide 180 degrees, so tests never see the row beyond it",
    PLT+":decoder_performance", SPH+":sh_matrix", DEC+":epad", DEC+":nearest_loudspeaker")
add("Filter bank bands lie where the table says",
    "In the bank returned by frac_octave_filterbank, band j+1 begins and band j ends at the edge f_low*2^((2j-1)/(2n)): outside its two edges, beyond the overlap and the resolution of the bins, a band has gain exactly 0, and between them exactly 1. At every bin at most two bands have a gain, and they are neighbours.",
    "every n >= 1, size, sampling rate, frequency limits, overlap from 0 to 0.5, slope, mode and bin",
    "all edges, overlaps and rounding positions; plots show only one configuration",
    PRO+":frac_octave_filterbank")
add("angle_between is the angle at the initial point",
    "angle_between(v1, v2, vi) is the Euclidean angle between 0 and pi at vi (at the origin without vi): it satisfies the law of cosines, the angles of a triangle sum to pi, and it does not depend on the order of v1 and v2 nor on a common shift, rotation or enlargement of the points.",
    "all points v1, v2 different from the initial point, with and without vi",
    "all triples of points in space",
    U+":angle_between", DEC+":LoudspeakerSetup.pop_triangles")
add("Turning loudspeakers, listener and sound field together changes no loudspeaker signal",
    "Let a rotation turn the loudspeakers and the listener, and the source positions or the Ambisonic signals (rotate_sh with the same angles). LoudspeakerSetup of the turned points is the turned setup (same valid faces, areas, distances), pop_triangles removes the same faces and the characteristic order stays. vbap, vbip (also with retain_outside) and nearest_loudspeaker return the same gains, and sad, mad and epad the same loudspeaker signals.",
    "all setups, sources, signals and rotations; epad when the loudspeakers are at least (N+1)^2 in general position; qhull listing the same faces",
    "all rotations and layouts; relates two runs of the whole rendering chain",
    DEC+":LoudspeakerSetup", DEC+":vbap", DEC+":vbip", DEC+":nearest_loudspeaker", DEC+":sad", DEC+":mad", DEC+":epad", SPH+":rotate_sh", U+":rotation_euler")
add("The numbering of the loudspeakers does not matter",
    "Listing the same loudspeakers in another order gives a setup with the same positions, distances and valid triangles (at the new numbers), and pop_triangles removes the same triangles. vbap returns the same gains for every source that lies in at most one triangle up to its tolerance, nearest_loudspeaker for every source with a single nearest loudspeaker, and sad, mad and epad return the same signals, all at the new numbers. A source next to an edge is rendered by the triangle listed first, so its gains depend on the numbering by about the tolerance.",
    "all setups, permutations, sources and signals; qhull finding the same triangles in whatever order; epad when the loudspeakers are at least (N+1)^2 in general position",
    "all permutations of all layouts; relates two runs",
    DEC+":LoudspeakerSetup", DEC+":LoudspeakerSetup.pop_triangles", DEC+":vbap", DEC+":nearest_loudspeaker", DEC+":sad", DEC+":mad", DEC+":epad")
add("Superposition: a weighted sum of signals is rendered as the weighted sum of the renderings",
    "src_to_sh, sht, sht_lstsq, inverse_sht, rotate_sh, sh_to_b, b_to_sh, n3d_to_sn3d, sn3d_to_n3d, sad, mad and epad applied to a*x + b*y return a times the result for x plus b times the result for y, and raise for all inputs of a shape or for none. Two groups of sources encoded in one call and decoded give the sum of the loudspeaker signals of the two groups. LoudspeakerSetup.binauralize does so up to 10e-6 per loudspeaker and input times the absolute sum of a response, and exactly when no loudspeaker is quiet without being silent: signals that never exceed 10e-6 at the listener are dropped, so twice a signal need not give twice the result.",
    "all signals, weights, shapes, directions, orders, rotations, layouts and HRIR sets; all pseudoinverse and SVD routines, all least squares routines of least norm",
    "all pairs of signals; relates three runs",
    SPH+":src_to_sh", SPH+":sht", SPH+":sht_lstsq", SPH+":inverse_sht", SPH+":rotate_sh", SPH+":sh_to_b", SPH+":b_to_sh", SPH+":n3d_to_sn3d", DEC+":sad", DEC+":mad", DEC+":epad", DEC+":LoudspeakerSetup.binauralize")
add("The unit of length does not matter",
    "Multiplying all loudspeaker positions and the listener position by the same c > 0 (metres to centimetres) gives the setup with positions, centroids, distances multiplied by c, normals and areas by c^2 and the same triangles; get_characteristic_order, sad, mad, epad and vbip return the same, vbap and nearest_loudspeaker return the same gains times c^a, and pop_triangles drops the same triangles. sad, mad and epad with an order given do not depend on the distance of any loudspeaker. The construction of the setup is unit free only while no facet is seen edge-on up to the absolute tolerance 10e-6 of calculate_face_normals: an octahedron of radius 0.01 loses triangles in pop_triangles that the octahedron of radius 1 keeps.",
    "all layouts, units, sources, distance exponents, orders, signals, pop_triangles limits; all hull, pseudoinverse and SVD routines, all least squares routines",
    "all units and layouts; relates two runs",
    DEC+":LoudspeakerSetup.__init__", DEC+":vbap", DEC+":vbip", DEC+":nearest_loudspeaker", DEC+":LoudspeakerSetup.pop_triangles", DEC+":LoudspeakerSetup.get_characteristic_order", DEC+":sad", DEC+":mad", DEC+":epad", DEC+":calculate_face_normals")
add("Signals can be processed in blocks",
    "src_to_sh, sht, sht_lstsq, inverse_sht, rotate_sh, sh_to_b, b_to_sh, n3d_to_sn3d, sn3d_to_n3d, sad, mad and epad treat each sample by itself: for samples selected, repeated or reordered the result is selected, repeated or reordered likewise, so that two consecutive blocks give the two parts of the result for the whole signal. LoudspeakerSetup.binauralize is time invariant: D zeros before the signals delay the result by D samples, D zeros after them append D zeros. The results for consecutive blocks, the second one delayed, add up to the result for the whole signal up to 3 * 10e-6 per loudspeaker times the absolute sum of a response, and exactly when no loudspeaker is quiet without being silent in a block; a quiet block after a loud one is dropped when processed alone.",
    "all signals, block lengths, delays, shapes, directions, orders, rotations, layouts and HRIR sets; all pseudoinverse and SVD routines, all least squares routines of least norm",
    "all ways to cut all signals; relates several runs",
    SPH+":src_to_sh", SPH+":sht", SPH+":sht_lstsq", SPH+":inverse_sht", SPH+":rotate_sh", SPH+":sh_to_b", SPH+":b_to_sh", SPH+":n3d_to_sn3d", DEC+":sad", DEC+":mad", DEC+":epad", DEC+":LoudspeakerSetup.binauralize")
add("A mirrored scene is rendered as the mirror image",
    "sh_matrix in a direction mirrored at the horizontal, median or frontal plane differs from the original by signs that depend on order and degree only, so src_to_sh of mirrored sources gives the signals with these signs. Mirrored loudspeakers play the mirrored signals with the same loudspeaker signals (sad, mad, epad) and get the same vbap, vbip and nearest_loudspeaker gains for mirrored sources; LoudspeakerSetup of mirrored points is the mirrored setup, provided no face is seen edge-on within the tolerance of calculate_face_normals, and pop_triangles and the characteristic order are the same. On a layout that is its own mirror image the mirrored sound field or source gives the same signals or gains at the mirror images (vbap: for sources in at most one triangle; nearest_loudspeaker: with a single nearest one), and with a symmetric HRIR set binauralize exchanges the ears.",
    "all directions, sources, signals, orders, planes, layouts and symmetric HRIR sets; epad when the loudspeakers are at least (N+1)^2 in general position; binauralize when every loudspeaker has a single nearest HRIR direction; qhull listing the same faces",
    "all scenes; relates two runs on different inputs",
    SPH+":sh_matrix", SPH+":src_to_sh", DEC+":LoudspeakerSetup", DEC+":vbap", DEC+":vbip", DEC+":nearest_loudspeaker", DEC+":sad", DEC+":mad", DEC+":epad", DEC+":LoudspeakerSetup.binauralize")
add("Ambisonic signals are scalable",
    "The first (N+1)^2 channels of an ambisonic signal of higher order are the signal of order N. src_to_sh and sht at order N give the first (N+1)^2 channels of the same call at a higher order; rotate_sh, n3d_to_sn3d and sn3d_to_n3d commute with dropping the higher orders; sad, mad, epad and inverse_sht at order N give the same with and without them, and silent higher orders do not change inverse_sht. allrad and allrad2 refuse every number of channels other than (N+1)^2 instead (AssertionError when a complete order is too many), and the lower orders of sht_lstsq do depend on the order requested.",
    "all signals, directions, orders N and N' >= N, rotation angles, layouts, weights and numbers of channels; rotate_sh from first order",
    "all pairs of orders; relates runs on inputs of different shapes",
    SPH+":src_to_sh", SPH+":sht", SPH+":inverse_sht", SPH+":sht_lstsq", SPH+":rotate_sh", SPH+":n3d_to_sn3d", SPH+":sn3d_to_n3d", DEC+":sad", DEC+":mad", DEC+":epad", DEC+":allrad", DEC+":allrad2")
add("The analysis turns with the sound field",
    "Analysing an ambisonic signal after rotate_sh, or after mirroring it, in the turned (mirrored) directions gives what the analysis of the original signal gives in the original directions: the signals of sh_beamform with sh_beamformer_from_pattern (all patterns), with sh_mvdr and of sh_lcmv, or the same error; the eigenvalues and the result of estimate_num_sources; the power and coherence of directions in both parts returned by separate_cov; and the MUSIC spectrum wherever the eigenvalues of signal and noise subspace differ (where they do not, the spectrum is that of whatever basis eigh returned). pseudo_intensity of turned first-order signals returns the turned directions with the same radii wherever the radius is at least 10e-15, for every number of jobs; sh_to_b of the rotated signal has the same W and the turned X, Y, Z; r_E of turned loudspeakers is the turned energy vector of the same length.",
    "all signals, covariance estimates (multiples of X X^T with diagonal loading), rotations, mirrors, directions, patterns, gains, numbers of sources, window lengths, orders, jobs and schedules; order at least 1 for rotate_sh",
    "all rotations and all signals; equality of whole analyses",
    PAR+":sh_beamform", PAR+":sh_beamformer_from_pattern", PAR+":sh_mvdr", PAR+":sh_lcmv", PAR+":sh_music", PAR+":separate_cov", PAR+":estimate_num_sources", PAR+":pseudo_intensity", SPH+":rotate_sh", SPH+":sh_to_b", SPH+":r_E")
add("Only relative levels matter to the analysis",
    "Multiplying all signals by a common gain does not change the weights of sh_mvdr and sh_lcmv computed from their covariance, nor the MUSIC spectrum where the eigenvalues of signal and noise subspace differ; eigenvalues and both parts of separate_cov at a given split point grow with the square of the gain; pseudo_intensity keeps azimuth and zenith (the zenith wherever the radius is at least 10e-15 at both levels), and its radius grows with the square; r_E, energy_decay, itds_from_hrirs (one gain per ear) and the output of match_loudness (level of the input) do not change. estimate_num_sources, and with it separate_cov by default, should not depend on the level either.",
    "all signals, covariances, gains other than zero (positive for match_loudness), directions, window lengths, orders, jobs and schedules; all eigh routines, linear resamplers and band-passes",
    "all gains; relates two runs",
    PAR+":sh_mvdr", PAR+":sh_lcmv", PAR+":sh_music", PAR+":separate_cov", PAR+":estimate_num_sources", PAR+":pseudo_intensity", SPH+":r_E", PRO+":energy_decay", PRO+":match_loudness", PRO+":itds_from_hrirs")
add("The unit of time does not matter",
    "With all sampling rates and frequencies multiplied by k > 0 and all times divided by k, trim, trim_audio and resample of the signal classes, frac_octave_filterbank (gains), subband_levels, ilds_from_hrirs, magls_bin (given f_trans), pulsed_noise and binaural_coloration_compensation (radius divided by k) return the same samples; itds_from_hrirs returns its result divided by k; the centre frequencies and band limits of frac_octave_filterbank and the frequency axis of plot.spectrum are multiplied by k, the time axis of plot.doa divided by k.",
    "all factors, signals, rates, times, frequencies, HRIR sets, resamplers and band-passes that depend on ratios of frequencies only",
    "all factors; relates two runs",
    SIG+":MonoSignal.trim", SIG+":MultiSignal.trim", SIG+":trim_audio", SIG+":MonoSignal.resample", PRO+":frac_octave_filterbank", PRO+":subband_levels", PRO+":ilds_from_hrirs", PRO+":itds_from_hrirs", PRO+":pulsed_noise", DEC+":magls_bin", SPH+":binaural_coloration_compensation", PLT+":spectrum", PLT+":doa")
add("Directions are treated one by one",
    "vbap and vbip of a list of sources return the rows of two consecutive calls for its two parts, leave the setup in the same state, and raise if and only if one of the two calls raises; sources that are selected, repeated or put in another order give the selected rows. The same holds for the rows of vbap over worker pools of any sizes, of allrap, allrap2 (also after the kernel gains were cached), sh_matrix, inverse_sht, sh_beamformer_from_pattern, sh_music and sh_mvdr, and for the indices of HRIRs.nearest_idx.",
    "all source lists and ways to split, select, repeat and reorder them, all setups and cached states, job counts, orders, patterns, covariance matrices and grids",
    "all partitions and permutations; relates several runs",
    DEC+":vbap", DEC+":vbip", DEC+":allrap", DEC+":allrap2", SPH+":sh_matrix", SPH+":inverse_sht", PAR+":sh_beamformer_from_pattern", PAR+":sh_music", PAR+":sh_mvdr", SIG+":HRIRs.nearest_idx")
add("Renderings of spatial impulse responses can be taken apart and put together",
    "For render_bsdm with a consistent HRIR set: pressures a*p + b*q from the same directions give a times plus b times the responses; two consecutive parts give the responses of the parts added, the second delayed by the length of the first; the directions of samples with zero pressure do not matter; if all sound comes from one direction the result is scipy.signal.convolve of the pressure and the nearest HRIR; HRIRs equalised by apply_ctf_eq (mode full) give the responses convolved with the equaliser; exchanged ears exchange the responses. All of this for any numbers of jobs of the calls involved. render_stereo_sdm is linear, works part by part, and ignores the directions of silent samples.",
    "all pressures, directions, HRIR sets, equalisers, job counts and interleavings",
    "all signals and schedules; relates several runs",
    PAR+":render_bsdm", PAR+":render_stereo_sdm", SIG+":HRIRs.nearest_hrirs", SIG+":HRIRs.apply_ctf_eq")
add("The numbering of grid points does not matter",
    "For points given in another order, together with their samples and weights, sht and sht_lstsq return the same coefficients, check_cond_sht the same condition number and message, calculate_grid_weights the weights in the new order and the same warning. For an HRIR set with its directions in another order, hrirs_ctf (with its own weights) and magls_bin return the same, ilds_from_hrirs and itds_from_hrirs the values in the new order, and HRIRs.nearest_hrirs, render_bsdm and LoudspeakerSetup.binauralize the same responses.",
    "all grids, samples, weights, HRIR sets and permutations",
    "all permutations; relates two runs",
    SPH+":sht", SPH+":sht_lstsq", SPH+":check_cond_sht", GRD+":calculate_grid_weights", PRO+":hrirs_ctf", DEC+":magls_bin", PRO+":ilds_from_hrirs", PRO+":itds_from_hrirs", SIG+":HRIRs.nearest_hrirs", PAR+":render_bsdm", DEC+":LoudspeakerSetup.binauralize")
add("Rotations of sound fields compose like rotations of space",
    "Two sets of angles give the same sh_rotation_matrix exactly if they give the same rotation_euler; if rotation_euler(t1) @ rotation_euler(t2) == rotation_euler(t3) then the SH rotation matrices multiply in the same way; every orthogonal matrix of determinant one is rotation_euler of some angles; hence any sequence of rotate_sh calls has the effect of one call, and rotate_sh(yaw, pitch, roll) is undone by rotate_sh(-yaw, 0, 0), rotate_sh(0, -pitch, 0), rotate_sh(0, 0, -roll) in this order; sh_mult of two rotated sets of coefficients is the rotated sh_mult.",
    "every order N >= 1, every angle, every sequence of rotations, all signals",
    "all orders, angles and sequences of calls of any length; existence of angles for every rotation",
    SPH+":sh_rotation_matrix", SPH+":rotate_sh", SPH+":sh_mult", U+":rotation_euler")
add("The transform on the provided grids is an orthogonal projection",
    "All weights of equal_angle(N) and gauss(N) are positive. On these grids with their weights, and on t-designs with t >= 2N without: sums over the grid of products of two inverse_sht renderings equal the inner products of the coefficients (real and complex harmonics); for every sampled function f, band limited or not, sht(f) are the unique coefficients whose rendering has the least weighted squared distance from f, and they carry no more energy than f, with equality exactly if f has order N on the grid. On t-designs sht without weights returns what sht_lstsq returns.",
    "every order N, every sampled function with any number of channels, every set of coefficients",
    "all orders and all functions, not only those of the order of the transform",
    SPH+":sht", SPH+":inverse_sht", SPH+":sht_lstsq", GRD+":equal_angle", GRD+":gauss", GRD+":load_t_design")
add("VBAP plays corners and edges with their loudspeakers and follows a moving source",
    "A source in the direction of a loudspeaker is played by this loudspeaker alone; a source on an edge by its two loudspeakers, with gains in the ratio of its coordinates, whichever of the triangles is listed first. Moving the source a little changes the gains little, also across edges and corners. Only within the tolerance beside an edge, where a triangle listed earlier keeps a source that has left it by up to 1e-5, the gains jump, by about this tolerance.",
    "every layout with linearly independent valid triangles, every norm order > 0, every source in a triangle that no triangle without its corners contains up to the tolerance",
    "continuity quantifies over all nearby sources; all layouts and norms",
    DEC+":vbap", DEC+":_invert_triplets")
add("Loudspeakers around the listener can play sources from everywhere",
    "If the listener is inside the convex hull of the loudspeakers (and no farther from their mean than the centres of the faces, so that LoudspeakerSetup keeps all faces), vbap finds a triangle for every source other than the origin: gains of unit norm, above the tolerance -10e-6, whose loudspeakers render the direction of the source. On such a hull allrap2 with a kernel of sufficient strength plays every source with the same energy.",
    "every layout, listener inside its hull, source direction and norm order > 0; Qhull returning proper triangles that cover the boundary of the hull",
    "all layouts and all directions",
    DEC+":LoudspeakerSetup", DEC+":get_hull", DEC+":vbap", DEC+":allrap2")
add("The face normals are outer normals; normal_limit=90 tells whether the listener is inside",
    "calculate_face_normals of a convex hull returns for every face (that is not edge-on to the mean of the loudspeakers up to the tolerance) a vector such that no loudspeaker lies beyond the plane of the face. pop_triangles(normal_limit=90) keeps a valid face exactly if the listener is not beyond its plane; on a setup with all faces valid it keeps all of them exactly if the listener is within the convex hull of the loudspeakers.",
    "every layout and listener; Qhull returning proper triangles that cover the boundary of the hull; no face coplanar with the mean of the loudspeakers",
    "all layouts and listener positions",
    DEC+":calculate_face_normals", DEC+":LoudspeakerSetup.pop_triangles", DEC+":check_normals")
add("With loudspeakers around the listener everything from the setup to the signals works",
    "For a layout around the listener ambisonics_setup(update_hull=False) completes; without characteristic_order it computes an order of at least one. From then on every call of vbap, vbip, allrap, allrap2, allrad and allrad2 that fits the order succeeds, in any sequence and any number, with one row of gains per source or one signal per loudspeaker. The result of a call does not depend on the calls made before it. At any point vbap plays every source from its own direction.",
    "every layout with the listener inside the convex hull (no farther from the mean loudspeaker than the face centres), every kernel grid that can be loaded, every sequence of calls; order left out: some face centre without a loudspeaker in its direction",
    "all layouts and all call histories",
    DEC+":LoudspeakerSetup.ambisonics_setup", DEC+":LoudspeakerSetup.get_characteristic_order", DEC+":vbap", DEC+":vbip", DEC+":allrap", DEC+":allrap2", DEC+":allrad", DEC+":allrad2")
add("Filters in sequence, filters around the binaural rendering",
    "Two MonoSignal.conv calls one after the other act as one with the convolved filter, in either order; a unit impulse changes nothing. For sh2bin: filtering all Ambisonic channels, filtering all responses and filtering the two ear signals give the same; D zeros before the signals delay the ear signals by D samples, D zeros after them are appended; the ear signals of consecutive blocks, overlapped and added, are those of the whole signals; a matrix on the channels can be applied transposed to the responses instead; turning the sound field and the responses together changes nothing.",
    "all signals, filters, block lengths and delays; two or more channels and taps; all matrices and rotations",
    "all signals, filters and lengths",
    SIG+":MonoSignal.conv", DEC+":sh2bin", SPH+":sh_rotation_matrix")
add("Directions of pseudo_intensity: locality and plane waves",
    "Away from the borders the direction and radius pseudo_intensity returns for a sample depend only on the samples at most win_len//2 + smoothing_order//2 away; whatever precedes or follows a recording only shifts the results. For a plane wave encoded by src_to_b the radius is at least the windowed energy of the signal (equal without smoothing), and wherever it is at least 10e-15 the direction is that of the source.",
    "all recordings, window lengths, smoothing orders (odd or 0), numbers of jobs and schedules, without band pass; all source signals and directions",
    "all signals and positions",
    PAR+":pseudo_intensity", PAR+":_intensity_sample", SPH+":src_to_b")
add("Directivity of the beams; where adaptive beams become fixed ones",
    "No beam of order N has a larger directivity (squared response towards a direction over its mean over the sphere) than (N+1)^2; sh_beamformer_from_pattern('hypercardioid' or 'max_di') has it in its steering direction with unit response, and only multiples of it do; 'cardioid' has 2N+1. sh_mvdr of a covariance that is a multiple of the identity (diffuse field, sensor noise), also with a source added in the steering direction, returns the hypercardioid; sh_lcmv with the single constraint of unit gain is sh_mvdr.",
    "all orders, directions, noise and source energies, and all beams of the order",
    "all beams and directions; an optimum over a continuum",
    PAR+":sh_beamformer_from_pattern", PAR+":sh_mvdr", PAR+":sh_lcmv", SPH+":hypercardioid_modal_weights", SPH+":cardioid_modal_weights")
add("Sources in noise: separation, MUSIC and extraction",
    "For the covariance of K sources (linearly independent steering vectors, positive definite source covariance) in noise of equal energy in all channels, separate_cov(S, K) returns exactly the covariance of the sources and that of the noise, and so does separate_cov(S) if the sources are strong enough for its threshold; with at most N sources from different directions sh_music attains its maximum exactly at their directions; with at most N+1 sources sh_lcmv constrained in all their directions, applied by sh_beamform to the encoded sources, returns their sum with the given gains.",
    "all orders, numbers and directions of sources, source covariances, noise levels, gains, signals and search grids; every eigenvalue decomposition numpy may return",
    "all scenes and grids; the eigenvectors are not unique",
    PAR+":separate_cov", PAR+":estimate_num_sources", PAR+":sh_music", PAR+":sh_lcmv", PAR+":sh_beamform")
add("Mode matching is the least squares solution, and plays a source at a loudspeaker from it alone",
    "decoder.mad returns, for every loudspeaker layout and order, those loudspeaker signals whose encoding at the loudspeaker directions is closest to sqrt(L)/(N+1) times the sound field, at every sample, and of all equally close ones the signals of least energy, which are unique. With at most N+1 loudspeakers in different directions, or more whose steering vectors are linearly independent, a source encoded in the direction of a loudspeaker is played by that loudspeaker alone, with gain sqrt(L)/(N+1).",
    "all loudspeaker layouts, orders, inputs and samples, and all competing loudspeaker signals",
    "an optimum over all loudspeaker signals; all layouts",
    DEC+":mad", SPH+":src_to_sh", SPH+":sh_matrix")
add("EPAD is the energy preserving decoder closest to sampling decoding",
    "With at least (N+1)^2 loudspeakers decoder.epad is, of all decoders that multiply the energy of every sound field by the same 4 pi/(N+1)^2, the one closest to decoder.sad in the sum of squared differences over loudspeakers and channels; with at most (N+1)^2 loudspeakers it is the closest of those that turn uncorrelated channels of equal energy into uncorrelated loudspeaker signals of equal energy. If the SH matrix of the loudspeakers has full rank (always for up to N+1 loudspeakers in different directions) it is the only one, so that the result does not depend on which singular value decomposition is used.",
    "all layouts, orders, and all competing decoders; every singular value decomposition",
    "an optimum over all energy preserving decoders",
    DEC+":epad", DEC+":sad")
add("Decoded scenes keep pressure, velocity and all moments up to the order",
    "For any scene of sources encoded by src_to_sh and decoded by mad on loudspeakers whose SH matrix has full column rank, or by sad or epad (which agree there) on loudspeakers forming a design of strength 2N, every polynomial of degree at most N in the direction, weighted with the signals, adds up over the loudspeakers to sqrt(L)/(N+1) times what it adds up to over the sources, at every sample. In particular the loudspeaker signals of one source add up to sqrt(L)/(N+1) times its signal and their velocity vector is exactly the direction of the source, of length one, for every direction.",
    "all layouts of full rank and designs, orders, numbers of sources, signals, directions and polynomials",
    "all scenes, layouts and polynomials",
    DEC+":mad", DEC+":sad", DEC+":epad", SPH+":src_to_sh")
add("Refining the triangulation step by step, and what it does to panning",
    "Calling pop_triangles repeatedly leaves exactly the triangles that meet the limits of every call, in their original order: the order of the calls does not matter, and giving the four limits in one call is the same as giving them in four. For a setup that has not panned yet, vbap afterwards plays a source whose triangle was kept with the very gains it had before, plays a source that lies in several triangles by the first kept one, and gives a source that lies in removed triangles only no gain at all.",
    "all layouts, sequences of calls, limits, blacklists, norms and source directions",
    "all sequences of calls and all layouts",
    DEC+":LoudspeakerSetup.pop_triangles", DEC+":vbap")
add("Headroom: how loud outputs can become",
    "For any scene of sources encoded by src_to_sh and decoded by epad on at least (N+1)**2 loudspeakers, at every sample no loudspeaker signal, nor the root of their total energy, exceeds the sum of the magnitudes of the source signals; with sad no loudspeaker exceeds (N+1)/sqrt(L) times that sum, and sources in the direction of a loudspeaker are played by it with exactly that gain. Beams of the built-in patterns (order up to 1224), and of any weights without negative ones and with unit response in the steering direction, never exceed the sum of the magnitudes. MonoSignal.conv, in every mode, raises the peak at most by the sum of the magnitudes of the filter, and the ear signals of sh2bin are bounded by the sum over the channels of such products. No vbap gain exceeds the distance compensation of its loudspeaker.",
    "all layouts, orders, numbers of sources, signals, directions, filters and norms",
    "all signals and layouts; peaks over all inputs",
    DEC+":epad", DEC+":sad", PAR+":sh_beamform", PAR+":sh_beamformer_from_pattern", SIG+":MonoSignal.conv", DEC+":sh2bin", DEC+":vbap")
add("What arrives at the listener from loudspeakers at different distances",
    "A source panned by vbap over the loudspeakers of a LoudspeakerSetup and attenuated on the way to the listener as binauralize does (1/r) arrives with the norm asked for and with its velocity vector in the direction of the source, whatever the distances of the loudspeakers; a source played by nearest_loudspeaker arrives from the loudspeaker at the least angle with exactly its own level.",
    "all layouts, listener positions, norms and source directions",
    "all layouts and sources",
    DEC+":vbap", DEC+":_invert_triplets", DEC+":nearest_loudspeaker", DEC+":LoudspeakerSetup.binauralize")
add("VBIP points the energy vector at the source",
    "For a setup with any loudspeaker distances, none at the listener position, whose valid triangles have linearly independent positions: the gains of vbip with any norm for a source which lies in the cones of the triangles that take it (not merely within the tolerance of -10e-6) are non-negative; if no valid triangle takes it they are all zero; otherwise they have unit norm and r_E, with the unit vectors from the listener to the loudspeakers, returns exactly a positive multiple of the source direction, with a magnitude of at most one.",
    "all layouts, listener positions, distances, sources and norms",
    "all layouts and directions; a test sees a handful of sources on one layout, mostly with loudspeakers on a sphere",
    DEC+":vbip", DEC+":vbap", SPH+":r_E", DEC+":LoudspeakerSetup.__init__")
add("Histories: panning, refining and Ambisonic rendering on one setup do not disturb each other",
    "On one LoudspeakerSetup, in any sequence of pop_triangles, ambisonics_setup, vbap, vbip, allrap, allrap2, allrad and allrad2 calls, whether they return or raise: positions, listener, distances, faces, centroids, areas and normals never change, valid faces are only removed, and only ambisonics_setup changes the characteristic order. On a prepared setup the results of allrap, allrap2, allrad, allrad2 and of vbap and vbip with retain_outside do not depend on calls made since (also not on pop_triangles), and these calls do not change what vbap and vbip without retain_outside, pop_triangles and ambisonics_setup do. With update_hull=False or given imaginary loudspeakers only the last completed ambisonics_setup counts: results are those of a new setup on which only that call was made, so removed triangles come back for Ambisonic rendering, if the order is given with the call or with ambisonics_setup. An ambisonics_setup that raises because of N_kernel=None keeps both hulls but replaces the order, after which allrad without N_sph rejects sound fields it accepted before.",
    "all layouts, all sequences of calls with all arguments (vbap and vbip with their default simplices)",
    "histories of any length; a test runs a fixed script of calls",
    DEC+":LoudspeakerSetup.pop_triangles", DEC+":LoudspeakerSetup.ambisonics_setup", DEC+":vbap", DEC+":vbip", DEC+":allrap", DEC+":allrap2", DEC+":allrad", DEC+":allrad2")
add("Turning the listener's head in binauralize",
    "LoudspeakerSetup.binauralize with an orientation offset (azimuth, zenith) renders the loudspeaker signals as they are heard by a listener whose head has been turned and tilted by these angles: the result is that of the same loudspeakers in the coordinates of the turned head, successive turns add up and whole turns change nothing.",
    "all layouts, loudspeaker signals, HRIR sets and offsets",
    "all offsets and layouts",
    DEC+":LoudspeakerSetup.binauralize", SIG+":HRIRs.nearest_hrirs", U+":cart2sph")
add("Weights per order, and only these, can be exchanged with rotations",
    "Multiplying the channels of an Ambisonic signal with repeat_per_order(w) (max-rE weights, modal patterns), n3d_to_sn3d and sn3d_to_n3d give the same before and after rotate_sh; conversely, a linear processing of the channels that gives the same before and after every rotate_sh is a multiplication with repeat_per_order of some weights.",
    "every order N >= 1, all signals, weights, rotations and processing matrices",
    "all rotations and all matrices",
    SPH+":rotate_sh", SPH+":sh_rotation_matrix", SPH+":repeat_per_order", SPH+":n3d_to_sn3d", SPH+":sn3d_to_n3d")
add("VBAP is the sharpest panning in amplitude",
    "Of all gains that are not negative, on any number of the loudspeakers, and that render the direction of the source, those of vbap (before distance compensation) need the least sum of amplitudes, i.e. have the longest velocity vector; if no further loudspeaker lies in the plane of a face, every panning with a velocity vector of that length is a multiple of them. On a new setup around the listener this holds for every source.",
    "every layout whose hull has the listener inside, every selection of valid faces, source, norm order >= 1 and competing gains; Qhull returning proper triangles that cover the boundary of the hull",
    "all competing gains",
    DEC+":vbap", DEC+":LoudspeakerSetup.__init__")
add("VBIP is the sharpest panning in energy",
    "With loudspeakers at equal distances around the listener, vbip gains have the longest energy vector (as reported by the energy-vector analysis) of all gains, of either sign and on any of the loudspeakers, whose energy vector points at the source; if no further loudspeaker lies in the plane of a face, all gains reaching that length distribute the energy in the same way.",
    "every layout whose hull has the listener inside with equal distances, every source that is not within the tolerance outside of a face that takes it, norm order p > 0 and competing gains; Qhull returning proper triangles that cover the boundary of the hull",
    "all competing gains",
    DEC+":vbip", DEC+":LoudspeakerSetup.__init__", DEC+":vbap", SPH+":r_E")
add("max_rE_weights against all other weights",
    "Up to order 1224, max_rE_weights(N) has the longest energy vector of all order weights with the same part of the energy in the highest order (so the approximate angle in the code only moves that part); any other weights exceed it by at most (N+1)/(2N+1) P_(N+1)/P_N times the difference of these parts, and weights with the same part and length are a multiple of max_rE_weights up to signs.",
    "every order up to 1224, design of strength 2N+1, source direction and competing weights",
    "all competing weights and orders",
    SPH+":max_rE_weights", SPH+":bandlimited_dirac", SPH+":r_E")
add("How sharp any decoded scene can be",
    "On loudspeakers forming a design of strength 2N+1, whatever sound field (any sources, diffuse, filtered) is decoded by sad, mad or epad at order N, r_E of the loudspeaker signals at any sample is never longer than the largest zero of the Legendre polynomial P_(N+1), which is below one; a single source with its orders weighted by P_n of that zero reaches exactly that length, towards the source.",
    "every order, design, sound field of at least (N+1)**2 channels, sample and source direction",
    "all sound fields, not only single sources",
    DEC+":sad", DEC+":mad", DEC+":epad", SPH+":r_E")
add("All sectors together are the field",
    "The pressure and x, y, z velocity outputs of sh_sector_beamformer for the analysis beams of design_sph_filterbank, summed over the sectors with the first row of the synthesis matrix, are, for every sound field one order above the beams, exactly its omnidirectional channel and its first-order channels over sqrt(3) in ACN order; with mode='energy' the products of pressure and velocity of the sectors add up, for a plane wave of any amplitude, to its energy times its direction.",
    "every sector order up to nine, design of sectors, order weights, sound field and plane wave",
    "arbitrary sound fields through both functions together",
    PAR+":sh_sector_beamformer", SPH+":design_sph_filterbank")
add("rotation_rodrigues reaches every rotation, rotation_vecvec is the smallest",
    "Every orthogonal matrix of determinant one is rotation_rodrigues(k, theta) for some axis and some theta in (pi, 3 pi], so despite the threshold that ignores small and negative angles no rotation is out of reach, not even small ones; a rotation turning by more than 10e-10 is also obtained with theta equal to the angle by which it turns, arccos((trace - 1)/2). Where rotation_vecvec(f, t) rotates at all, it turns by the angle between f and t; every other rotation taking the direction of f to that of t turns further.",
    "every rotation, and every pair of vectors outside the thresholds of rotation_vecvec",
    "all rotations compete with the returned one",
    U+":rotation_rodrigues", U+":rotation_vecvec")
add("Which angles are the same rotation",
    "Unless the pitch is +-90 degrees, two sets of angles give the same rotation_euler, and the same sh_rotation_matrix, exactly if they agree up to full turns as they are or after the flip (yaw + pi, pi - pitch, roll + pi). At a pitch of +90 (-90) degrees only yaw + roll (yaw - roll) matters. Every rotation has angles with yaw and roll in (-pi, pi] and pitch in [-pi/2, pi/2], and only one such triple unless the pitch is +-90 degrees.",
    "all angles, all rotations, every order N >= 1",
    "all pairs of triples of angles",
    U+":rotation_euler", SPH+":sh_rotation_matrix")
add("Filter banks and sectors turn and mirror with the field",
    "design_sph_filterbank called with turned (or mirrored) sector directions analyses the sound field turned with rotate_sh (or mirrored) into the same sector signals, and what its synthesis matrix makes of any sector signals is the turned (mirrored) synthesis, in each of the modes 'perfect', 'energy' and 'pinv'. The sh_sector_beamformer of beams turned with rotate_sh gives for the turned field the same pressure outputs, and the velocity outputs turned by rotation_euler.",
    "every order N >= 1 (sector beamformers up to nine), rotation, mirror plane, set of sectors, order weights, beams and sound field",
    "all rotations and sound fields",
    SPH+":design_sph_filterbank", PAR+":sh_sector_beamformer", SPH+":rotate_sh", U+":rotation_euler")
add("sh_mult is a product",
    "sh_mult(a, b) == sh_mult(b, a), also in which calls raise; sh_mult(sh_mult(a, b), c) == sh_mult(a, sh_mult(b, c)); the product is linear in each factor; multiplying with the coefficients sqrt(4 pi), 0, 0, ... of the function one, of any order, only appends zeros; sqrt(4 pi) times the first coefficient of the product is the sum of products of the coefficients, so that of a square is the energy; and the product is zero only if one of the factors is zero.",
    "all coefficients of all orders whose sum is between 1 and 10",
    "all pairs and triples of coefficient vectors",
    SPH+":sh_mult")
add("sh_mult with complex spherical harmonics",
    "sh_mult(a, b, 'complex') returns the (N1+N2+1)**2 coefficients whose expansion in complex spherical harmonics is the pointwise product of the expansions of a and b, in every direction; although returned as complex numbers, they are real. For N1 + N2 = 0 and for N1 + N2 > 10 it raises ValueError.",
    "all real coefficients of all orders",
    "all pairs of coefficient vectors",
    SPH+":sh_mult", SPH+":sht", SPH+":inverse_sht")
add("Products of beams",
    "sh_mult of the coefficients repeat_per_order(cardioid_modal_weights(N)) * sh_matrix(N, azi, zen) of two cardioids of orders N1 and N2 steered to the same direction gives those of the cardioid of order N1 + N2. For any weights per order the product of two beams steered to the same direction is again a beam steered there, with weights that do not depend on the direction; its gain in that direction is the product of the gains, so that beams of unit amplitude have products of unit amplitude.",
    "all orders whose sum is between 1 and 10, all weights, all directions",
    "all weights and directions",
    SPH+":sh_mult", SPH+":cardioid_modal_weights", SPH+":repeat_per_order")
add("Lagrange delays as filters",
    "lagrange_delay(N, N - d) is lagrange_delay(N, d) reversed; at d = N/2 its phase is linear at every frequency. A signal sampled from a polynomial of degree at most N leaves the filter delayed by exactly d samples, and the moments about d up to order N vanish; for a polynomial of degree N + 1 the output is wrong by its leading coefficient times d (d-1) ... (d-N), so it is right only for the whole delays 0 to N. Two such filters in a row delay polynomials up to the smaller order by the sum of the delays.",
    "all orders, all delays (inside or outside the taps), all polynomials, all frequencies",
    "all orders, delays and polynomials",
    PRO+":lagrange_delay")
add("Shape and limits of the Butterworth weights",
    "butterworth_modal_weights(N, k, n_c) are positive and fall strictly with the order for k > 0, with or without UNITAMP; relative to order zero they are 1/sqrt(2) exactly at the cut-on order n_c, larger below and smaller above it, where they follow the slope (n_c/n)^k to within 3 dB from below. k = 0 gives hypercardioid_modal_weights(N). For growing k and n_c between M and M + 1 (M <= N) they tend to hypercardioid_modal_weights(M), for growing n_c to hypercardioid_modal_weights(N).",
    "all orders N, all real k >= 0, all real n_c > 0; limits in k and n_c",
    "monotonicity for all real parameters, limits",
    SPH+":butterworth_modal_weights", SPH+":hypercardioid_modal_weights")
add("The clipping curve has no corner",
    "gain_clipping(g, t) for t > 0 has a slope at every gain, one up to and at the threshold and falling above it; the curve is concave and never enlarges the difference of two gains. Scaling gains and threshold by the same factor scales the result, and a larger threshold never gives a smaller gain.",
    "all gains, all positive thresholds (all non-zero factors)",
    "slope, concavity and monotonicity in the threshold for all real values",
    PRO+":gain_clipping")
if __name__ == "__main__":
    out = os.path.join(os.path.dirname(os.path.abspath(__file__)), "..", "properties.jsonl")
    with open(out, "w") as f:
        for p in P:
            f.write(json.dumps(p) + "\n")
    print(len(P))
