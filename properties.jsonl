{"id": "C01", "title": "Cartesian/spherical round trip", "statement": "sph2cart(*cart2sph(x, y, z)) returns (x, y, z) for every point other than the origin; cart2sph(*sph2cart(azi, zen, r)) returns (azi, zen, r) for azi in (-pi, pi], zen in (0, pi), r > 0; the zenith is always in [0, pi], the azimuth in (-pi, pi] (in [0, 2*pi) with positive_azi=True, and then the same point is still recovered); steady_zen=True changes nothing when the radius is at least 10e-15.", "quantifier": "every real point other than the origin, every direction in the stated ranges, both values of positive_azi and steady_zen", "why_tests_cant": "the suite checks eight corner points of a cube; the statement ranges over all of R^3 including the poles, the negative x axis and every octant boundary", "anchors": ["spaudiopy/utils.py:cart2sph", "spaudiopy/utils.py:sph2cart", "spaudiopy/utils.py:cart2dir", "spaudiopy/utils.py:dir2cart", "spaudiopy/utils.py:vec2dir"]}
{"id": "C02", "title": "Degree/radian conversion wraps into one turn and is its own inverse", "statement": "deg2rad(d) lies in [0, 2*pi), rad2deg(r) lies in [0, 360), both are periodic in one full turn, they multiply by pi/180 and 180/pi up to whole turns, rad2deg(deg2rad(d)) == d for d in [0, 360) and deg2rad(rad2deg(r)) == r for r in [0, 2*pi).", "quantifier": "every real angle, positive or negative, of any number of turns", "why_tests_cant": "an unbounded range of angles with wrap-around at every multiple of a turn", "anchors": ["spaudiopy/utils.py:deg2rad", "spaudiopy/utils.py:rad2deg"]}
{"id": "C03", "title": "haversine is the central angle and a metric on directions", "statement": "haversine(azi1, zen1, azi2, zen2) equals the angle between the two unit vectors (the value angle_between gives for their Cartesian coordinates), is symmetric, lies in [0, pi], scales linearly with r and satisfies the triangle inequality.", "quantifier": "every pair (triple) of directions with arbitrary real azimuth and zenith", "why_tests_cant": "a statement about all pairs and triples of points on the sphere; tests sample a few", "anchors": ["spaudiopy/utils.py:haversine", "spaudiopy/utils.py:angle_between", "spaudiopy/utils.py:dir2cart"]}
{"id": "C04", "title": "Euler rotation matrices are proper rotations", "statement": "rotation_euler(yaw, pitch, roll) is orthogonal with determinant 1, preserves lengths and dot products, is the identity for zero angles, and rotation_euler(yaw, pitch, roll) = Rz(yaw) Ry(pitch) Rx(roll) with one-axis rotations that add their angles.", "quantifier": "every triple of real angles", "why_tests_cant": "a continuum of angles", "anchors": ["spaudiopy/utils.py:rotation_euler"]}
{"id": "C05", "title": "Axis-angle rotation", "statement": "rotation_rodrigues(k, theta) for every non-zero axis k and every theta > 10e-10 is orthogonal with determinant 1, leaves k fixed and turns every vector perpendicular to k by theta in the right-handed sense; for theta <= 10e-10, in particular for every negative angle, it returns the identity, so the law R(k, -theta) = R(k, theta)^-1 a user may expect does not hold.", "quantifier": "every axis and every real angle on both sides of the threshold", "why_tests_cant": "continuum of axes and angles, plus the branch at 10e-10 that hides negative angles", "anchors": ["spaudiopy/utils.py:rotation_rodrigues"]}
{"id": "C06", "title": "Vector to vector rotation", "statement": "rotation_vecvec(f, t) raises ValueError exactly when the normalised vectors are (numerically) collinear, that is when the norm of their cross product is below 10e-15; otherwise, whenever the angle between them exceeds 10e-10, the result is a proper rotation that maps f/|f| to t/|t|.", "quantifier": "every pair of non-zero vectors", "why_tests_cant": "all pairs of vectors, including nearly parallel ones", "anchors": ["spaudiopy/utils.py:rotation_vecvec", "spaudiopy/utils.py:rotation_rodrigues"]}
{"id": "C07", "title": "Decibel conversion round trip", "statement": "from_db(db(x, power), power) == |x| for x != 0 and db(from_db(y, power), power) == y, for both settings of power; db is additive over products and strictly monotone in |x|.", "quantifier": "every non-zero ratio x, every level y, both power settings", "why_tests_cant": "continuum of inputs", "anchors": ["spaudiopy/utils.py:db", "spaudiopy/utils.py:from_db"]}
{"id": "C08", "title": "Channel interleaving is lossless and rejects mismatched input", "statement": "interleave_channels(l, r) has twice the rows, row 2i is l[i] and row 2i+1 is r[i], so that taking every other row recovers both inputs; arrays of different shape raise ValueError, and style='SSR' raises ValueError unless there are exactly 360 channels.", "quantifier": "every number of channels and samples and every content", "why_tests_cant": "unbounded shapes", "anchors": ["spaudiopy/utils.py:interleave_channels"]}
{"id": "C09", "title": "One-dimensional coercion", "statement": "asarray_1d accepts an array exactly when at most one of its dimensions differs from 1, keeps all elements in order, returns an array with exactly one dimension, upgrades scalars to length one, and raises ValueError otherwise; it is idempotent.", "quantifier": "every array shape of every rank", "why_tests_cant": "shapes of arbitrary rank", "anchors": ["spaudiopy/utils.py:asarray_1d"]}
{"id": "C10", "title": "ACN layout of orders", "statement": "repeat_per_order(c) for N+1 coefficients has length (N+1)**2 and its entry at ACN channel n**2 + n + m is c[n] for every order n <= N and degree |m| <= n; the columns of sh_matrix are in the same ACN order, and sh_matrix(N') begins with the columns of sh_matrix(N) when N <= N'.", "quantifier": "every SH order N and every (n, m)", "why_tests_cant": "all orders; an off-by-one in the running column index would show only at some orders", "anchors": ["spaudiopy/sph.py:repeat_per_order", "spaudiopy/sph.py:sh_matrix"]}
{"id": "C11", "title": "SH order recovered from the channel count", "statement": "The order int(sqrt(K) - 1) used by every function that infers the order from K channels is N exactly when (N+1)**2 <= K < (N+2)**2; in particular it inverts K = (N+1)**2, and channel counts that are no perfect square are silently rounded down to the largest complete order.", "quantifier": "every channel count K >= 1", "why_tests_cant": "all channel counts", "anchors": ["spaudiopy/sph.py:inverse_sht", "spaudiopy/sph.py:n3d_to_sn3d", "spaudiopy/sph.py:rotate_sh", "spaudiopy/decoder.py:sad", "spaudiopy/decoder.py:allrad", "spaudiopy/parsa.py:sh_music"]}
{"id": "C12", "title": "N3D/SN3D conversion", "statement": "n3d_to_sn3d and sn3d_to_n3d are inverse to each other on signals with (N+1)**2 channels, scale channel n**2+n+m by 1/sqrt(2n+1) respectively sqrt(2n+1), leave the omnidirectional channel untouched, and with axis=1 do the same along the other axis.", "quantifier": "every SH order, number of samples, content and both axes", "why_tests_cant": "all orders and signals", "anchors": ["spaudiopy/sph.py:n3d_to_sn3d", "spaudiopy/sph.py:sn3d_to_n3d"]}
{"id": "C13", "title": "First-order SH and B-format conversion", "statement": "b_to_sh(sh_to_b(F, w), w) == F and sh_to_b(b_to_sh(B, w), w) == B for every non-zero W weight (including the default None), the channel order goes from ACN (W, Y, Z, X) to (W, X, Y, Z), and W_weight scales only the W channel.", "quantifier": "every 4-channel signal of any length and every non-zero weight", "why_tests_cant": "continuum of signals and weights", "anchors": ["spaudiopy/sph.py:sh_to_b", "spaudiopy/sph.py:b_to_sh"]}
{"id": "C14", "title": "B-format encoding of a plane wave agrees with the SH route", "statement": "sh_to_b(src_to_sh(s, azi, zen, N_sph=1)) == src_to_b(s, azi, zen): W carries the signal, X/Y/Z carry it scaled by the Cartesian components of the direction.", "quantifier": "every source signal and direction", "why_tests_cant": "continuum of directions; relies on exact constants in both routes", "anchors": ["spaudiopy/sph.py:src_to_b", "spaudiopy/sph.py:src_to_sh", "spaudiopy/sph.py:sh_to_b", "spaudiopy/sph.py:sh_matrix"]}
{"id": "C15", "title": "Tetrahedral microphone encoding", "statement": "soundfield_to_b applied to the four samples, at the tetrahedron directions, of any first-order sound field with SH coefficients F returns sh_to_b(F): the four capsules recover every first-order field exactly. The directions are those of platonic_solid('tetra') or ('tetrahedron'), front left up first; it raises for other names.", "quantifier": "every first-order field, signal length and W weight", "why_tests_cant": "continuum of fields", "anchors": ["spaudiopy/sph.py:soundfield_to_b", "spaudiopy/sph.py:platonic_solid", "spaudiopy/sph.py:sht"]}
{"id": "C16", "title": "Unit-amplitude modal weights", "statement": "unity_gain(w), hypercardioid_modal_weights(N), cardioid_modal_weights(N), maxre_modal_weights(N) and butterworth_modal_weights(N, k, n_c) satisfy sum_n (2n+1)/(4 pi) w_n = 1, i.e. a beam steered at a plane wave from the same direction returns it with amplitude exactly 1; unity_gain is idempotent and scale invariant.", "quantifier": "every SH order N and every weight vector whose steering gain is not zero", "why_tests_cant": "all orders N: a closed-form sum identity that sampling orders cannot establish", "anchors": ["spaudiopy/sph.py:unity_gain", "spaudiopy/sph.py:hypercardioid_modal_weights", "spaudiopy/sph.py:cardioid_modal_weights", "spaudiopy/sph.py:maxre_modal_weights", "spaudiopy/sph.py:butterworth_modal_weights", "spaudiopy/sph.py:bandlimited_dirac"]}
{"id": "C17", "title": "The cardioid pattern is in phase", "statement": "bandlimited_dirac(N, d, cardioid_modal_weights(N)) == ((1 + cos d)/2)**N: the order-N cardioid is non-negative everywhere, has its maximum 1 in steering direction and a null of order N behind.", "quantifier": "every order N and every central angle d", "why_tests_cant": "polynomial identity for all orders and angles", "anchors": ["spaudiopy/sph.py:cardioid_modal_weights", "spaudiopy/sph.py:bandlimited_dirac"]}
{"id": "C18", "title": "SH addition theorem for sh_matrix", "statement": "For real spherical harmonics of order n as computed by sh_matrix, sum over m of Y_nm(d1) Y_nm(d2) = (2n+1)/(4 pi) P_n(cos of the angle between d1 and d2); hence each row of sh_matrix(N) has squared norm (N+1)**2/(4 pi), and Y(d1) diag(repeat_per_order(w)) Y(d2)^T is bandlimited_dirac(N, angle, w).", "quantifier": "every order and every pair of directions", "why_tests_cant": "all orders and a continuum of direction pairs", "anchors": ["spaudiopy/sph.py:sh_matrix", "spaudiopy/sph.py:bandlimited_dirac", "spaudiopy/decoder.py:allrap", "spaudiopy/parsa.py:sh_beamformer_from_pattern"]}
{"id": "C19", "title": "SH rotation matrices rotate sound fields", "statement": "sh_rotation_matrix(N, yaw, pitch, roll) @ Y(d) == Y(rotation_euler(yaw, pitch, roll) d) for every direction d: the recursively built matrix maps the SH vector of a direction to the SH vector of the rotated direction, and rotate_sh applied to an encoded source is the source encoded in the rotated direction.", "quantifier": "every order N >= 1, every rotation, every direction", "why_tests_cant": "the recursion couples every order to the one below; tests cover three orders and 27 rotations", "anchors": ["spaudiopy/sph.py:sh_rotation_matrix", "spaudiopy/sph.py:rotate_sh", "spaudiopy/utils.py:rotation_euler"]}
{"id": "C20", "title": "SH rotation matrices are orthogonal and block diagonal", "statement": "sh_rotation_matrix(N, ...) is orthogonal for every N >= 1, is block diagonal with blocks of size 2n+1 at offset n**2 (orders never mix), keeps the energy per order, is the identity for zero angles, and rotations of order N contain those of lower order as leading blocks.", "quantifier": "every order and every rotation", "why_tests_cant": "all orders of a recursion", "anchors": ["spaudiopy/sph.py:sh_rotation_matrix"]}
{"id": "C21", "title": "SH rotation is defined for every order a user can pass", "statement": "sh_rotation_matrix(N_sph, ...) returns an (N_sph+1)**2 square matrix for every order N_sph >= 0 with real SH, NotImplementedError for 'complex' and ValueError for any other type; rotate_sh accepts exactly channel counts that are perfect squares.", "quantifier": "every order including 0, every sh_type string, every channel count", "why_tests_cant": "the suite only uses orders 1, 3, 5; the boundary order 0 is where it breaks", "anchors": ["spaudiopy/sph.py:sh_rotation_matrix", "spaudiopy/sph.py:rotate_sh"]}
{"id": "C22", "title": "SHT round trip on the provided quadrature grids", "statement": "For every band-limited function of order N, sht(inverse_sht(F, azi, zen), N, azi, zen, weights=w) == F on the grid gauss(N) and on equal_angle(N), for real spherical harmonics.", "quantifier": "every order N and every coefficient matrix F", "why_tests_cant": "all orders and all functions: needs exact discrete orthogonality of spherical harmonics", "anchors": ["spaudiopy/sph.py:sht", "spaudiopy/sph.py:inverse_sht", "spaudiopy/grids.py:gauss", "spaudiopy/grids.py:equal_angle"]}
{"id": "C23", "title": "Least-squares SHT recovers band-limited functions", "statement": "sht_lstsq(inverse_sht(F, azi, zen, N), N, azi, zen) == F whenever the SH matrix of the grid has full column rank, and in general returns the minimum-norm least-squares coefficients.", "quantifier": "every grid, order and coefficient matrix", "why_tests_cant": "all grids and functions", "anchors": ["spaudiopy/sph.py:sht_lstsq", "spaudiopy/sph.py:inverse_sht"]}
{"id": "C24", "title": "Spherical filter bank: perfect reconstruction", "statement": "For design_sph_filterbank(mode='perfect') on a sector grid that integrates products of order-N harmonics exactly with equal weights (a t-design), B @ A is the identity for every modal pattern with non-zero entries; mode='pinv' gives B @ A = I whenever A has full column rank; mode='energy' scales the same B by one common factor; any other mode raises ValueError.", "quantifier": "every order, every t-design grid, every pattern c_n without zeros", "why_tests_cant": "all grids, orders and patterns", "anchors": ["spaudiopy/sph.py:design_sph_filterbank", "spaudiopy/sph.py:sph_filterbank_reconstruction_factor"]}
{"id": "C25", "title": "sh_mult multiplies functions on the sphere", "statement": "sh_mult(a, b) returns the (N1+N2+1)**2 coefficients whose order-(N1+N2) expansion equals the pointwise product of the two expansions (given an exact design grid), for every N1 + N2 between 1 and 10; for N1 + N2 = 0 and for N1 + N2 > 10 it raises ValueError.", "quantifier": "every pair of coefficient vectors and orders", "why_tests_cant": "all orders; the lower boundary N1 = N2 = 0 is not tested", "anchors": ["spaudiopy/sph.py:sh_mult", "spaudiopy/grids.py:load_t_design"]}
{"id": "C26", "title": "Energy vector", "statement": "r_E(p, g) for unit loudspeaker directions has magnitude at most 1 for every gain vector, exactly 1 when a single loudspeaker is active, magnitude 0 (not NaN) for all-zero gains, is the mean of the directions weighted with the squared gains (hence within their convex hull), is invariant under common gain scaling, and mismatched sizes raise AssertionError.", "quantifier": "every number of loudspeakers and every gain vector", "why_tests_cant": "continuum of gains and layouts", "anchors": ["spaudiopy/sph.py:r_E"]}
{"id": "C27", "title": "Quadrature grids have the documented size and total weight", "statement": "equal_angle(n) returns (2n+2)**2 points, gauss(n) returns (n+1)(2n+2) points, the weights sum to 4 pi, all azimuths lie in [0, 2 pi) and zeniths in (0, pi); equal_polar_angle(n) returns 2n+1 equispaced angles whose weights sum to 1.", "quantifier": "every order n >= 0", "why_tests_cant": "all orders n; needs a closed form of trigonometric sums", "anchors": ["spaudiopy/grids.py:equal_angle", "spaudiopy/grids.py:gauss", "spaudiopy/grids.py:equal_polar_angle"]}
{"id": "C28", "title": "Design loaders return the next available degree", "statement": "load_n_design / load_lebedev / load_maxDet(degree) return the tabulated design of the smallest tabulated degree >= the requested one (emitting one warning per skipped degree), raise ValueError below the lower bound, above the upper bound, and when no larger degree is tabulated; they always terminate. load_t_design accepts exactly 1..21 and load_Fliege_Maier_nodes exactly 2..30.", "quantifier": "every integer degree and every content of the data file", "why_tests_cant": "every integer argument and every possible gap pattern of the table", "anchors": ["spaudiopy/grids.py:load_n_design", "spaudiopy/grids.py:load_lebedev", "spaudiopy/grids.py:load_maxDet", "spaudiopy/grids.py:load_t_design", "spaudiopy/grids.py:load_Fliege_Maier_nodes"]}
{"id": "C29", "title": "VBAP renders the source direction", "statement": "For every source, the gain row of vbap has at most three non-zero entries, all belonging to one valid simplex; before distance compensation they have unit p-norm and are all > -10e-6, and the gain-weighted sum of the loudspeaker vectors is a positive multiple of the source vector.", "quantifier": "every source position, every loudspeaker layout, every norm order, every list of valid simplices", "why_tests_cant": "continuum of sources and layouts", "anchors": ["spaudiopy/decoder.py:vbap", "spaudiopy/decoder.py:_invert_triplets"]}
{"id": "C30", "title": "VBAP finds a triplet whenever one contains the source", "statement": "If a non-zero source lies in the cone of some valid, linearly independent simplex, vbap returns a non-zero row, chosen from the first such simplex (up to the -10e-6 tolerance); if the source lies outside all of them by more than the tolerance, the row is all zero; scaling the source by a positive factor does not change the gains.", "quantifier": "every source and layout", "why_tests_cant": "continuum of sources; completeness of the search", "anchors": ["spaudiopy/decoder.py:vbap"]}
{"id": "C31", "title": "VBAP is independent of jobs_count and of the schedule", "statement": "vbap(src, hull, jobs_count=n) returns the same gains for every number of worker processes and every interleaving of their writes into the shared array, and the same as the serial path.", "quantifier": "every worker count, every assignment of sources to workers, every interleaving of single-element writes", "why_tests_cant": "a test runs a handful of schedules; the claim is about all interleavings", "anchors": ["spaudiopy/decoder.py:vbap", "spaudiopy/decoder.py:_vbap_gains_single_source", "spaudiopy/decoder.py:_init_shared_array"]}
{"id": "C32", "title": "VBAP depends only on the current setup, not on earlier calls", "statement": "After any history of vbap calls and pop_triangles calls, vbap(src, hull) returns the gains of the current valid simplices of the hull, exactly as on a freshly built setup with those valid simplices.", "quantifier": "every history of vbap and pop_triangles calls on one LoudspeakerSetup", "why_tests_cant": "a history property; tests call vbap on a fresh hull", "anchors": ["spaudiopy/decoder.py:vbap", "spaudiopy/decoder.py:LoudspeakerSetup.pop_triangles", "spaudiopy/decoder.py:_invert_triplets"]}
{"id": "C33", "title": "The characteristic order depends only on the layout", "statement": "get_characteristic_order() returns the same value whether or not vbap has been called on the setup before, and never modifies the setup.", "quantifier": "every history of vbap and get_characteristic_order calls", "why_tests_cant": "history property; depends on a shallow copy sharing a cache", "anchors": ["spaudiopy/decoder.py:characteristic_ambisonic_order", "spaudiopy/decoder.py:LoudspeakerSetup.get_characteristic_order", "spaudiopy/decoder.py:vbap"]}
{"id": "C34", "title": "VBIP gains", "statement": "vbip gains are non-negative, each row has unit p-norm or is all zero, is non-zero exactly where the VBAP gain is positive, and the squared gains of a row are proportional to the positive part of the VBAP gains.", "quantifier": "every source, layout and norm", "why_tests_cant": "continuum", "anchors": ["spaudiopy/decoder.py:vbip"]}
{"id": "C35", "title": "pop_triangles only removes faces, and exactly the offending ones", "statement": "After pop_triangles(normal_limit, aperture_limit, opening_limit, blacklist) the valid simplices are a sub-list (as faces) of the ones before; a face survives iff it passes every limit that is not None and is not blacklisted; repeating the call changes nothing; a limit of None bypasses its check.", "quantifier": "every triangulation, every combination of limits", "why_tests_cant": "all triangulations and limit combinations", "anchors": ["spaudiopy/decoder.py:LoudspeakerSetup.pop_triangles", "spaudiopy/decoder.py:check_normals", "spaudiopy/decoder.py:check_aperture", "spaudiopy/decoder.py:check_opening", "spaudiopy/decoder.py:apply_blacklist"]}
{"id": "C36", "title": "Looser limits keep more faces", "statement": "Raising normal_limit, aperture_limit or opening_limit never removes additional faces. (Holds for limits in [0, 360); limits are wrapped into one turn, so a limit of 360 acts as 0, and an empty blacklist removes every face.)", "quantifier": "every pair of limits and every triangulation", "why_tests_cant": "wrap-around is at a single boundary value tests do not hit", "anchors": ["spaudiopy/decoder.py:check_normals", "spaudiopy/decoder.py:check_aperture", "spaudiopy/decoder.py:check_opening", "spaudiopy/decoder.py:apply_blacklist", "spaudiopy/utils.py:deg2rad"]}
{"id": "C37", "title": "Face bookkeeping", "statement": "sort_vertices returns for every face the same three vertices, starting with the smallest index, with the cyclic orientation reversed; is_simplex_valid(s) is true exactly when some valid simplex has the same three vertices, whatever their order.", "quantifier": "every list of faces", "why_tests_cant": "unbounded face lists, all orders of vertices", "anchors": ["spaudiopy/decoder.py:sort_vertices", "spaudiopy/decoder.py:LoudspeakerSetup.is_simplex_valid"]}
{"id": "C38", "title": "Face normals point outwards", "statement": "calculate_face_normals returns a vector perpendicular to the face with length twice the face area and whose dot product with the direction from the face centroid to the barycenter is at most eps (10e-6), independent of the orientation of the face; calculate_face_areas gives half the product of two edge lengths and the sine of the enclosed angle and is invariant under permutation of the vertices; deviations from centroids and barycenter cancel.", "quantifier": "every face of every layout", "why_tests_cant": "continuum of layouts", "anchors": ["spaudiopy/decoder.py:calculate_face_normals", "spaudiopy/decoder.py:calculate_face_areas", "spaudiopy/utils.py:area_triangle", "spaudiopy/decoder.py:calculate_centroids"]}
{"id": "C39", "title": "Building a LoudspeakerSetup does not modify the caller's arrays", "statement": "LoudspeakerSetup(x, y, z, listener_position) leaves x, y, z and listener_position as the caller passed them.", "quantifier": "every input array and listener position, including arrays that share memory", "why_tests_cant": "aliasing: the defect is visible only in the caller's variables after the call", "anchors": ["spaudiopy/decoder.py:LoudspeakerSetup.__init__", "spaudiopy/utils.py:asarray_1d"]}
{"id": "C40", "title": "Ambisonic rendering requires a prepared setup", "statement": "allrap, allrap2, allrad, allrad2 and vbap(retain_outside=True) raise ValueError before any computation unless ambisonics_setup() has completed on the setup; an ambisonics_setup() call that raises leaves kernel and ambisonic hull unset or as they were.", "quantifier": "every history of setup calls, successful or failing at any point", "why_tests_cant": "crash points inside ambisonics_setup", "anchors": ["spaudiopy/decoder.py:LoudspeakerSetup.ambisonics_setup", "spaudiopy/decoder.py:allrap", "spaudiopy/decoder.py:allrap2", "spaudiopy/decoder.py:allrad", "spaudiopy/decoder.py:allrad2", "spaudiopy/decoder.py:vbap", "spaudiopy/decoder.py:find_imaginary_loudspeaker"]}
{"id": "C41", "title": "ALLRAD of an encoded source equals ALLRAP", "statement": "Decoding a source encoded with src_to_sh at order N with allrad gives the allrap gains of that direction times the source signal; imaginary loudspeakers get no output; allrad is linear in the input.", "quantifier": "every source direction and signal, every layout, kernel grid and order", "why_tests_cant": "continuum of directions, all layouts", "anchors": ["spaudiopy/decoder.py:allrad", "spaudiopy/decoder.py:allrap", "spaudiopy/sph.py:src_to_sh"]}
{"id": "C42", "title": "EPAD preserves energy", "statement": "For L >= (N+1)**2 loudspeakers, the output energy of epad is 4 pi/(N+1)**2 times the energy of the (truncated) input for every signal and every layout; a plane wave is thus rendered with the same energy from every direction.", "quantifier": "every layout with enough loudspeakers, every order, every signal", "why_tests_cant": "continuum of layouts and signals", "anchors": ["spaudiopy/decoder.py:epad"]}
{"id": "C43", "title": "MAD and SAD re-encode the sound field", "statement": "If the loudspeaker SH matrix has full column rank, encoding the mad loudspeaker signals at the loudspeaker directions gives sqrt(L)/(N+1) times the truncated input; for a t-design layout the same holds for sad up to its constant and sad and mad then differ only by a constant factor; both ignore input channels above order N and reject inputs of lower order.", "quantifier": "every layout, order and signal", "why_tests_cant": "all layouts and signals", "anchors": ["spaudiopy/decoder.py:mad", "spaudiopy/decoder.py:sad"]}
{"id": "C44", "title": "Nearest loudspeaker selection", "statement": "nearest_loudspeaker activates exactly one loudspeaker per source, one whose direction has the smallest angle to the source (first index on ties), with gain d**a; scaling the source does not change the choice.", "quantifier": "every source and layout", "why_tests_cant": "continuum", "anchors": ["spaudiopy/decoder.py:nearest_loudspeaker"]}
{"id": "C45", "title": "Binaural rendering from SH signals", "statement": "sh2bin returns 2 rows of length S+L-1, each the sum over SH channels of the full linear convolution with that channel's filter; it is linear in the signal and in the filters; it rejects mismatched channel counts, and is defined for every order and filter length.", "quantifier": "every order, signal and filter length", "why_tests_cant": "unbounded sizes; the squeeze breaks for singleton dimensions", "anchors": ["spaudiopy/decoder.py:sh2bin"]}
{"id": "C46", "title": "Loudspeaker signal rendering", "statement": "loudspeaker_signals(gains, sig) is the (L, S) array of sig[s]*gains[s, l], with unit signal by default, and rejects a wrong number of loudspeakers; binauralize returns S+T-1 samples per ear, the sum over loudspeakers of the convolution of the 1/r**a attenuated signal with the nearest HRIR, skipping loudspeakers that never exceed 10e-6.", "quantifier": "every layout, signal, orientation", "why_tests_cant": "unbounded sizes", "anchors": ["spaudiopy/decoder.py:LoudspeakerSetup.loudspeaker_signals", "spaudiopy/decoder.py:LoudspeakerSetup.binauralize"]}
{"id": "C47", "title": "Trimming signals", "statement": "MonoSignal.trim(start, stop) keeps exactly the samples from int(start*fs) up to int(stop*fs) (or to the end), rejects a start at or beyond the end, dur overrides stop, consecutive trims compose, and MultiSignal.trim does the same to every channel.", "quantifier": "every signal, sampling rate and pair of times, every sequence of trims", "why_tests_cant": "all histories and lengths; boundary and negative times", "anchors": ["spaudiopy/sig.py:MonoSignal.trim", "spaudiopy/sig.py:MultiSignal.trim", "spaudiopy/sig.py:trim_audio"]}
{"id": "C48", "title": "A MultiSignal stays a consistent multichannel signal", "statement": "After any sequence of trim, conv, apply and resample calls every channel of a MultiSignal has the same length and the number of channels is unchanged.", "quantifier": "every history of operations on every signal", "why_tests_cant": "invariant over unbounded histories; resample of a one-channel signal and conv with too few filters break it", "anchors": ["spaudiopy/sig.py:MultiSignal.trim", "spaudiopy/sig.py:MultiSignal.conv", "spaudiopy/sig.py:MultiSignal.apply", "spaudiopy/sig.py:MultiSignal.resample", "spaudiopy/process.py:resample_signal"]}
{"id": "C49", "title": "AmbiBSignal: W, X, Y, Z are the channels", "statement": "At any time the attributes W, X, Y, Z of an AmbiBSignal are the signals of its four channels, so analyses (pseudo_intensity, b_to_stereo) see the same audio as get_signals/save.", "quantifier": "every history of trim, conv, apply, resample calls", "why_tests_cant": "history property; tests never analyse a trimmed signal", "anchors": ["spaudiopy/sig.py:AmbiBSignal", "spaudiopy/sig.py:MultiSignal.trim", "spaudiopy/process.py:ambeo_a2b", "spaudiopy/parsa.py:pseudo_intensity"]}
{"id": "C50", "title": "trim_audio works on a copy", "statement": "trim_audio(A, start, stop) leaves A unchanged and returns what A.trim(start, stop) would have produced; copies returned by copy() are independent of the original under every later operation on either.", "quantifier": "every signal and every later history of operations on either object", "why_tests_cant": "aliasing over unbounded histories", "anchors": ["spaudiopy/sig.py:trim_audio", "spaudiopy/sig.py:MonoSignal.copy"]}
{"id": "C51", "title": "Nearest HRIR selection", "statement": "HRIRs.nearest_idx(azi, zen) is the first grid index with the smallest haversine distance to the direction, for scalar and array input; nearest_hrirs returns that row of both ears; a direction on the grid returns a grid point at distance zero.", "quantifier": "every grid and every direction", "why_tests_cant": "continuum; dot product and haversine must induce the same order", "anchors": ["spaudiopy/sig.py:HRIRs.nearest_idx", "spaudiopy/sig.py:HRIRs.nearest_hrirs", "spaudiopy/utils.py:haversine"]}
{"id": "C52", "title": "HRIR set consistency", "statement": "Every HRIRs object has one left and one right response per direction and the same number of taps for both ears, num_samples equals that number, also after update_hrirs and apply_ctf_eq.", "quantifier": "every construction and history of updates", "why_tests_cant": "histories; constructor accepts different tap counts", "anchors": ["spaudiopy/sig.py:HRIRs.__init__", "spaudiopy/sig.py:HRIRs.update_hrirs", "spaudiopy/sig.py:HRIRs.apply_ctf_eq"]}
{"id": "C53", "title": "Lagrange fractional delay", "statement": "lagrange_delay(N, d) has N+1 taps that sum to 1, is the unit impulse at d for integer 0 <= d <= N, and interpolates every polynomial of degree <= N exactly: sum_k h[k] q(k) = q(d).", "quantifier": "every order N, every real delay, every polynomial", "why_tests_cant": "all orders, delays and polynomials", "anchors": ["spaudiopy/process.py:lagrange_delay"]}
{"id": "C54", "title": "Fractional octave filter bank reconstructs", "statement": "For frac_octave_filterbank in 'energy' mode the squared gains, in 'amplitude' mode the gains, sum to exactly 1 at every frequency bin, and all gains lie in [0, 1]; an unknown mode raises ValueError.", "quantifier": "every band count, FFT size, sampling rate, overlap from 0 to 0.5 (the documented range) and slope for which the band edges fit the frequency axis", "why_tests_cant": "all parameters and bins", "anchors": ["spaudiopy/process.py:frac_octave_filterbank"]}
{"id": "C55", "title": "Soft gain clipping", "statement": "gain_clipping(g, t) for t > 0 leaves gains <= t unchanged, is strictly increasing, never exceeds the input and stays below 2*t.", "quantifier": "every gain and positive threshold", "why_tests_cant": "continuum", "anchors": ["spaudiopy/process.py:gain_clipping"]}
{"id": "C56", "title": "match_loudness never clips", "statement": "match_loudness returns a positive multiple of the input whose absolute values never exceed 1; when no normalisation was needed its loudest-channel RMS equals the target's.", "quantifier": "every non-silent input and target of any size", "why_tests_cant": "continuum of signals", "anchors": ["spaudiopy/process.py:match_loudness"]}
{"id": "C57", "title": "Fractional octave smoothing is a local weighted mean", "statement": "frac_octave_smoothing returns an array of the same length, each value lies between the minimum and maximum of the input over its window, constants are preserved, the window always contains the bin itself, and the operation is linear; weighted and unweighted.", "quantifier": "every input, every fraction", "why_tests_cant": "all lengths and window sizes (empty windows would divide by zero)", "anchors": ["spaudiopy/process.py:frac_octave_smoothing"]}
{"id": "C58", "title": "Energy decay curves decay", "statement": "energy_decay(p) is non-increasing in time and its first value is 0 dB.", "quantifier": "every impulse response", "why_tests_cant": "continuum of signals", "anchors": ["spaudiopy/process.py:energy_decay"]}
{"id": "C59", "title": "Half-sided Hann taper", "statement": "half_sided_Hann(N) for N >= 3 has N+1 weights in (0, 1], starts with ones and decreases at the end, and raises AssertionError for N < 3.", "quantifier": "every N", "why_tests_cant": "all N, even and odd", "anchors": ["spaudiopy/process.py:half_sided_Hann"]}
{"id": "C60", "title": "Pulsed noise has the requested duration", "statement": "pulsed_noise(t_noise, t_pause, fs, reps) is reps repetitions of int(fs*t_noise) noise samples followed by int(fs*t_pause) zeros.", "quantifier": "every duration, pause, rate and repetition count", "why_tests_cant": "all parameter combinations with t_pause != t_noise, odd lengths", "anchors": ["spaudiopy/process.py:pulsed_noise"]}
{"id": "C61", "title": "HRIR resampling is independent of jobs_count", "statement": "resample_hrirs gives the same result for every jobs_count >= 1 (None means cpu_count) and every schedule of the pool.", "quantifier": "every worker count and completion order", "why_tests_cant": "all schedules", "anchors": ["spaudiopy/process.py:resample_hrirs"]}
{"id": "C62", "title": "render_bsdm is independent of jobs_count and of the schedule", "statement": "render_bsdm returns for every number of workers and every interleaving of their read-modify-write steps the same responses as the serial loop (exact arithmetic), provided all workers share the lock; output sample t is the sum over i of p[i]*h_i[t-i].", "quantifier": "every worker count and every interleaving of individual loads and stores", "why_tests_cant": "lost updates appear only in rare interleavings; the corresponding test is commented out", "anchors": ["spaudiopy/parsa.py:render_bsdm", "spaudiopy/parsa.py:_render_bsdm_sample", "spaudiopy/parsa.py:lock"]}
{"id": "C63", "title": "pseudo_intensity is independent of jobs_count and of the schedule", "statement": "pseudo_intensity returns for every jobs_count and interleaving the same values as the serial loop; sample t of the unsmoothed intensity is the windowed integral of W*(X,Y,Z) centred on t wherever the whole window fits, and zero at the borders.", "quantifier": "every worker count, interleaving, window length and signal length", "why_tests_cant": "all interleavings and lengths, including signals shorter than the window", "anchors": ["spaudiopy/parsa.py:pseudo_intensity", "spaudiopy/parsa.py:_intensity_sample"]}
{"id": "C64", "title": "Covariance separation", "statement": "separate_cov(S, k) for a symmetric S satisfies S_pp + S_nn = S; for 1 <= k < L and positive semidefinite S both parts are positive semidefinite, S_pp has rank at most k and S_nn has its k largest eigenvalues replaced by the next one.", "quantifier": "every covariance matrix and split point, including 0", "why_tests_cant": "continuum of matrices; k = 0 selects everything", "anchors": ["spaudiopy/parsa.py:separate_cov", "spaudiopy/parsa.py:estimate_num_sources"]}
{"id": "C65", "title": "Source count estimate", "statement": "estimate_num_sources returns an integer between 0 and L-1, 0 when the eigenvalue variance is below the threshold; otherwise, if some ratio of consecutive eigenvalues exceeds the threshold, the number of eigenvalues above the first such jump.", "quantifier": "every ascending eigenvalue list and threshold", "why_tests_cant": "all eigenvalue lists; no-jump case", "anchors": ["spaudiopy/parsa.py:estimate_num_sources"]}
{"id": "C66", "title": "MVDR is distortionless and optimal", "statement": "For every invertible symmetric positive definite covariance, each row w of sh_mvdr satisfies w . Y(steer) = 1, and no other weight vector with unit response in that direction has smaller output variance w S w^T.", "quantifier": "every positive definite covariance and direction", "why_tests_cant": "continuum; optimality is over all weight vectors", "anchors": ["spaudiopy/parsa.py:sh_mvdr"]}
{"id": "C67", "title": "LCMV meets its constraints and is optimal", "statement": "sh_lcmv returns w with w . Y(dir_j) = c_gain[j] for every constraint, and minimal output variance among all such weights.", "quantifier": "every positive definite covariance, every set of linearly independent constraint directions", "why_tests_cant": "continuum; optimality over all weight vectors", "anchors": ["spaudiopy/parsa.py:sh_lcmv"]}
{"id": "C68", "title": "Beamforming a plane wave", "statement": "sh_beamform(sh_beamformer_from_pattern(p, N, dirs), src_to_sh(s, azi, zen, N)) equals s times the pattern evaluated at the angle between steering and source direction; with the built-in patterns a beam steered at the source returns exactly s; unknown pattern names raise ValueError and a wrong number of weights AssertionError.", "quantifier": "every order, pattern, steering direction and source", "why_tests_cant": "all orders and directions", "anchors": ["spaudiopy/parsa.py:sh_beamformer_from_pattern", "spaudiopy/parsa.py:sh_beamform", "spaudiopy/sph.py:bandlimited_dirac"]}
{"id": "C69", "title": "MUSIC spectrum bounds", "statement": "sh_music returns positive values of at most 1/10e-12, and attains the maximum exactly in directions orthogonal to the noise subspace; every value is the inverse of the energy of the steering vector in the noise subspace plus 10e-12.", "quantifier": "every covariance, direction and number of sources", "why_tests_cant": "continuum; num_src = 0 makes the noise subspace empty", "anchors": ["spaudiopy/parsa.py:sh_music"]}
{"id": "C70", "title": "Stereo SDM rendering conserves pressure", "statement": "render_stereo_sdm gives ir_l + ir_r = p sample by sample, both panning gains lie in [0, 1], independent of the elevation; the left gain (1 + sin azimuth)/2 increases from right to left, is 1 at the left and 1/2 in front, and mirrored directions swap the ears.", "quantifier": "every pressure signal and direction sequence", "why_tests_cant": "continuum", "anchors": ["spaudiopy/parsa.py:render_stereo_sdm"]}
{"id": "C71", "title": "Post equalisation: block processing covers the signal", "statement": "In sdm_post_equalization every overlap-add slice lies inside the buffer, the windows sum to one over every sample of the padded signal region that is returned, so that unit equalisation gains pass the signal unchanged before band filtering, and the output has the shape of the input.", "quantifier": "every signal length, block size and band", "why_tests_cant": "all lengths relative to block sizes", "anchors": ["spaudiopy/parsa.py:sdm_post_equalization"]}
{"id": "C72", "title": "Block smoothing of the alternative post equalisation takes effect", "statement": "In sdm_post_equalization2 the gains applied to the audio are the smoothed band gains that are returned in band_gains_list.", "quantifier": "every signal and smoothing order", "why_tests_cant": "needs comparing internal and returned gains over all blocks", "anchors": ["spaudiopy/parsa.py:sdm_post_equalization2"]}
{"id": "C73", "title": "Truncation warning", "statement": "sdm_post_equalization and sdm_post_equalization2 warn whenever non-negligible signal is cut off at either end by the final truncation.", "quantifier": "every signal", "why_tests_cant": "a warning that inspects the wrong column is invisible to value tests", "anchors": ["spaudiopy/parsa.py:sdm_post_equalization", "spaudiopy/parsa.py:sdm_post_equalization2"]}
{"id": "C74", "title": "save_audio rejects a contradicting sampling rate", "statement": "save_audio(signal, filename, fs) with a signal object whose fs differs from the fs argument raises instead of writing a file.", "quantifier": "every signal object and fs", "why_tests_cant": "a dead type check (module compared against class)", "anchors": ["spaudiopy/io.py:save_audio"]}
{"id": "C75", "title": "load_audio assembles channels in order", "statement": "load_audio(files) returns the channels of all files in order, as a MonoSignal if there is exactly one channel in total and a MultiSignal otherwise, at the common sampling rate; files with differing rates, or a rate different from the requested one, raise.", "quantifier": "every list of files with any channel counts", "why_tests_cant": "unbounded lists", "anchors": ["spaudiopy/io.py:load_audio"]}
{"id": "C76", "title": "Loudspeaker layouts survive save and load", "statement": "load_layout(save_layout(...)) restores every loudspeaker position up to the two-decimal rounding, the imaginary flags and the gain of each loudspeaker; loading keeps each real loudspeaker's gain attached to it whatever the position of imaginary loudspeakers in the file.", "quantifier": "every layout file", "why_tests_cant": "all orders of real and imaginary loudspeakers", "anchors": ["spaudiopy/io.py:load_layout", "spaudiopy/io.py:save_layout"]}
{"id": "C77", "title": "SSR BRIR files", "statement": "write_ssr_brirs_loudspeaker and write_ssr_brirs_sdm write 720 channels in which channels 2a and 2a+1 are left and right ear for head orientation a degrees, scaled so that no sample exceeds 1 in magnitude and by one common factor, to a file name ending in '.wav'; the result does not depend on jobs_count >= 1.", "quantifier": "every signal, hrir set and file name", "why_tests_cant": "all inputs and schedules", "anchors": ["spaudiopy/io.py:write_ssr_brirs_loudspeaker", "spaudiopy/io.py:write_ssr_brirs_sdm"]}
{"id": "C78", "title": "Dummy HRIRs", "statement": "load_hrirs(fs, 'dummy') produces a valid HRIR set with both ears' impulses inside the 256 taps for every sampling rate a user may ask for; the default set is offered for exactly 44100, 48000 and 96000 Hz and the returned set always has the requested fs.", "quantifier": "every sampling rate", "why_tests_cant": "all rates", "anchors": ["spaudiopy/io.py:load_hrirs"]}
{"id": "C79", "title": "Real spherical harmonics are orthonormal and span polynomials", "statement": "The columns of sh_matrix(N, azi, zen), as functions of direction, are orthonormal under integration over the sphere, and their linear combinations are exactly the restrictions to the sphere of polynomials of degree at most N in the Cartesian coordinates.", "quantifier": "every order and every pair of indices", "why_tests_cant": "integral identity over a continuum, every order", "anchors": ["spaudiopy/sph.py:sh_matrix"]}
{"id": "C80", "title": "Analytic grids integrate polynomials exactly", "statement": "sum(weights * p(directions)) over equal_angle(n) and gauss(n) equals the surface integral of p over the unit sphere for every polynomial p of degree at most 2n+1.", "quantifier": "every n and every polynomial", "why_tests_cant": "all degrees and all polynomials", "anchors": ["spaudiopy/grids.py:equal_angle", "spaudiopy/grids.py:gauss"]}
{"id": "C81", "title": "Filter bank bands tile the spectrum", "statement": "The frequency table returned by frac_octave_filterbank is contiguous: the first band begins at 0, each band begins exactly where the previous one ends, the last one ends at fs/2; if the lowest band edge is above 1 Hz and below fs/2, every band is non-empty and its centre frequency lies strictly inside it.", "quantifier": "every band fraction n >= 1, sampling rate and frequency range", "why_tests_cant": "all numbers of bands and all rates", "anchors": ["spaudiopy/process.py:frac_octave_filterbank"]}
{"id": "C82", "title": "What save_audio wrote, load_audio returns", "statement": "For a MonoSignal or MultiSignal with equally long, non-empty channels, load_audio of the file written by save_audio(signal, filename) returns the same samples, channel by channel and in the same order, at the same sampling rate (a single channel comes back as a MonoSignal, an AmbiBSignal as the MultiSignal of its channels W, X, Y, Z); save_audio warns about clipping exactly if a sample exceeds one in magnitude and about the channels exactly if they outnumber the samples, and rejects objects that are neither signals nor arrays. An array of n samples (times c channels) with a sampling rate comes back as the signal of its columns, arrays of more dimensions are rejected.", "quantifier": "every signal, channel count and length", "why_tests_cant": "all shapes; a wrong transposition is invisible for symmetric data", "anchors": ["spaudiopy/io.py:save_audio", "spaudiopy/io.py:load_audio"]}
{"id": "C83", "title": "The listener position moves all loudspeakers of a layout", "statement": "load_layout(filename, listener_position=p) returns a setup in which every loudspeaker of the file, real or imaginary, is at its position in the file minus p, both in the setup itself and in its ambisonics_hull.", "quantifier": "every layout file and listener position", "why_tests_cant": "relative positions of real and imaginary loudspeakers over all files", "anchors": ["spaudiopy/io.py:load_layout"]}
{"id": "C84", "title": "Grid weights integrate polynomials", "statement": "calculate_grid_weights(azi, zen, order) returns weights that integrate every polynomial of degree at most the order exactly over the sphere, sum to 4*pi and have the smallest norm among all such weights, whenever the spherical harmonics of that order are linearly independent on the grid; on a spherical 2*order-design all weights equal 4*pi/Q; the warning is given exactly if a weight is negative. Order 0 or less is rejected with AssertionError, and without order the function fails when the grid is ill conditioned already at order 1 or never becomes so.", "quantifier": "every grid of any size, every order, every polynomial", "why_tests_cant": "all grids and all polynomials; optimality is a statement over all weight vectors", "anchors": ["spaudiopy/grids.py:calculate_grid_weights", "spaudiopy/sph.py:sh_matrix"]}
{"id": "C85", "title": "Interaural level differences", "statement": "For each direction, ilds_from_hrirs is positive exactly if the band-passed left response has more energy than the right one, zero exactly if both have the same; in dB it is 10*log10 of the energy ratio. Swapping the ears changes the sign, a gain at one ear shifts the dB value by that gain in dB and a common gain changes nothing; a silent ear gives an infinite value of the right sign, two silent ears nan.", "quantifier": "every HRIR set and every linear band-pass", "why_tests_cant": "all responses and gains", "anchors": ["spaudiopy/process.py:ilds_from_hrirs"]}
{"id": "C86", "title": "Interaural time differences", "statement": "If the (resampled, band-passed) right response is the left one delayed by d samples, d below half the length, itds_from_hrirs returns exactly d divided by the upsampled rate, positive if the right ear is later; swapping the ears changes the sign if the correlation has a unique maximum; the magnitude never exceeds half the response length. A silent ear yields the largest representable time difference, not zero.", "quantifier": "every HRIR set, resampler and band-pass", "why_tests_cant": "all lengths, delays and signs; off-by-one errors at even and odd lengths", "anchors": ["spaudiopy/process.py:itds_from_hrirs"]}
{"id": "C87", "title": "Sector beamformers are beams times velocity patterns", "statement": "sh_sector_beamformer(A) has four rows per sector: row 4*s+c steers to the sector beam of row s multiplied with 1, x, y or z of the direction, for every direction. Sectors of order 10 or more are rejected with ValueError.", "quantifier": "every number of sectors, order up to 9, every coefficient matrix and direction", "why_tests_cant": "functional identity over the whole sphere", "anchors": ["spaudiopy/parsa.py:sh_sector_beamformer", "spaudiopy/sph.py:sh_mult"]}
{"id": "C88", "title": "Mode strength and coloration compensation of the rigid sphere", "statement": "mode_strength(n, kr, 'rigid') is finite and non-zero for every order and kr other than 0 and equals 4*pi*i^(n-1)/(kr^2 * h_n2'(kr)). binaural_coloration_compensation is 1 at 0 Hz; when N_sph is at most ceil(kr) at the last frequency and the taper is within [0, 1] and not all zero, the gain is at least 1 at every frequency, and equal to 1 at a frequency other than 0 exactly if nothing is truncated or tapered. An empty frequency vector or a taper shorter than N_sph+1 raises IndexError, an unknown sphere type ValueError.", "quantifier": "every order, frequency vector, radius and taper", "why_tests_cant": "zeros of Bessel functions are not hit by sampling; all orders", "anchors": ["spaudiopy/sph.py:mode_strength", "spaudiopy/sph.py:spherical_hn2", "spaudiopy/sph.py:pressure_on_sphere", "spaudiopy/sph.py:binaural_coloration_compensation"]}
{"id": "C89", "title": "Magnitude least squares binaural decoder", "statement": "Every channel returned by magls_bin has, up to a taper of the first 4 and last 32 taps (0 at both ends), the spectrum of coefficients that fit the HRTFs in the least squares sense below the frequency nearest to f_trans (600*N_sph by default), and above it fit targets with the magnitudes of the HRTFs and the phase rendered at the previous frequency plus a constant step; with independent steering vectors the rendered magnitudes equal those of the HRTFs. With hf_cont 'avg' or 'angle' a delay common to all directions is preserved exactly at all frequencies. A positive gain at an ear is a gain on its decoder, exchanging the ears exchanges the result. As many taps are returned as the HRIRs have, except that an odd number above 1024 loses the last. Unknown hf_cont and responses below 32 samples raise ValueError; 'avg' and 'angle' with fewer than 6 frequencies below f_trans (always so for order 0 by default) raise AssertionError.", "quantifier": "every HRIR set, order, transition frequency, continuation and delay", "why_tests_cant": "optimality over all coefficient vectors; recursion over all frequencies", "anchors": ["spaudiopy/decoder.py:magls_bin"]}
{"id": "C90", "title": "Common transfer function equaliser", "statement": "hrirs_ctf(hrirs, MIN_PHASE, freq_lims, grid_weights) returns num_samples taps. Without minimum phase they are the impulse response of the inverse of the colour of the set (weighted power mean over the directions, averaged over the ears, smoothed over an octave, relative to 1 kHz), faded into 1 by raised cosines below and above the limits, delayed by num_samples//2+1 and windowed; with minimum phase they come from the response with the squared amplitudes. A set with flat magnitudes yields a single impulse. A common gain, inverted polarity, exchanged ears or another order of the directions change nothing. Without grid_weights those of calculate_grid_weights for order 5 are used. Another number of weights than directions raises AssertionError.", "quantifier": "every HRIR set, weights and limits with at least five frequencies below 1 kHz", "why_tests_cant": "spectral identity at all frequencies for all sets", "anchors": ["spaudiopy/process.py:hrirs_ctf"]}
{"id": "C91", "title": "SOFA files", "statement": "load_sofa_hrirs returns, for every direction of the file, the responses of the first two receivers, the azimuth and zenith angle of the same direction (the file holds azimuth and elevation in degrees) and the sampling rate; radii that differ by 0.1 m or more on average and elevations above 90 degrees raise AssertionError, missing variables KeyError. sofa_to_sh returns for every sample the least squares fit of (N+1)^2 coefficients, which is exact for responses of that order on directions that determine the coefficients, real and complex; other types raise ValueError.", "quantifier": "every file with at least two directions, receivers and samples", "why_tests_cant": "all contents; a file with one direction is rejected with IndexError", "anchors": ["spaudiopy/io.py:load_sofa_hrirs", "spaudiopy/io.py:load_sofa_data", "spaudiopy/io.py:sofa_to_sh"]}
{"id": "C92", "title": "SDM files", "statement": "load_sdm returns the signal h_ref (or else p), azimuth sdm_azi (or sdm_phi), zenith sdm_zen (or sdm_theta) and the sampling rate. With init_nan no returned direction is nan: missing azimuths become 0, missing zeniths pi/2, everything else is unchanged; without it nan are kept. A file without one of the four raises KeyError.", "quantifier": "every file content", "why_tests_cant": "all combinations of variables and nan positions", "anchors": ["spaudiopy/io.py:load_sdm"]}
{"id": "C93", "title": "Transforms with complex spherical harmonics", "statement": "sh_matrix(N, azi, zen, 'complex') holds Y_n^m of direction q in row q, column n^2+n+m. sht with the weights of equal_angle(N) or gauss(N), or without weights on a spherical design of strength 2N, and sht_lstsq on any such grid, return exactly the complex coefficients inverse_sht rendered. The sum over m of Y_n^m(d1) conj(Y_n^m(d2)) is (2n+1)/(4 pi) P_n(cos of the angle). For real samples, any grid and weights, the coefficient of (n,-m) is (-1)^m times the conjugate of that of (n,m), and inverse_sht renders the same values from 'complex' as from 'real' coefficients.", "quantifier": "every order, coefficient matrix, grid of the named kinds and direction", "why_tests_cant": "exactness for all orders and coefficients", "anchors": ["spaudiopy/sph.py:sh_matrix", "spaudiopy/sph.py:sht", "spaudiopy/sph.py:inverse_sht", "spaudiopy/sph.py:sht_lstsq"]}
{"id": "C94", "title": "Default HRIR sets", "statement": "After get_default_hrirs(azi, zen), or in load_hrirs(fs) itself when no default file exists, load_hrirs(fs) for 44100, 48000 and 96000 Hz returns the set at that rate with the directions of the grid in order (gauss(35) by default) and, for either ear and direction, the impulse response whose spectrum is the SH expansion of the source at that direction, resampled from the rate of the source for 48000 and 96000 Hz and unchanged for 44100 Hz, for every jobs_count >= 1. On the default grid sht of the spectra returns the coefficients of the source at every frequency between the first and the last. One grid angle without the other raises TypeError, different numbers of frequencies AssertionError.", "quantifier": "every source, grid of two or more directions, number of jobs and order of completion", "why_tests_cant": "end to end through expansion, inverse transform, pool, file and loader", "anchors": ["spaudiopy/io.py:get_default_hrirs", "spaudiopy/io.py:load_hrirs", "spaudiopy/process.py:resample_hrirs"]}
{"id": "C95", "title": "Resampling of spectra", "statement": "resample_spectrum returns, for stacked spectra of at least two bins, the spectra of the resampled impulse responses, L//2+1 bins for L resampled samples; a single spectrum is returned one-dimensional. At unchanged rate it returns the spectra of real signals as they are. Fewer than two bins raise ValueError.", "quantifier": "every stack of spectra and pair of rates", "why_tests_cant": "all spectra; odd lengths are not preserved", "anchors": ["spaudiopy/process.py:resample_spectrum"]}
{"id": "C96", "title": "Subband levels", "statement": "subband_levels returns per band sqrt(fs/(2 width) sum |x|^2), and with power=True the square of that divided by the number of samples: scaling a band by c scales its level by |c| and no other band; a flat band has the same level whatever the number of its bins; the squared levels of the bands of frac_octave_filterbank, weighted with the band widths, add up to fs/2 times the energy of the spectrum.", "quantifier": "every subband signal, width and rate", "why_tests_cant": "all spectra and filter banks", "anchors": ["spaudiopy/process.py:subband_levels", "spaudiopy/process.py:frac_octave_filterbank"]}
{"id": "C97", "title": "The alternative post equalisation never amplifies", "statement": "All band gains sdm_post_equalization2 applies or returns lie between 0 and 1. If every loudspeaker plays the reference times a panning gain c_l, the gain of a band in which the reference is not silent is 1/sum|c_l/d_l^a| in the lowest band and 1/sqrt(sum (c_l/d_l^a)^2) from the fourth band on, each at most 1, and in between in the second and third band.", "quantifier": "every signal, setup, block size and smoothing order", "why_tests_cant": "all signals and blocks", "anchors": ["spaudiopy/parsa.py:sdm_post_equalization2", "spaudiopy/process.py:subband_levels"]}
{"id": "C98", "title": "Faces around the listener", "statement": "A LoudspeakerSetup considers by default those faces valid that face the listener, so that for a listener inside the hull all faces are valid and for one outside some are not.", "quantifier": "every loudspeaker layout, triangulation and listener position", "why_tests_cant": "all layouts; a face is dropped exactly if its centre lies inside the ball spanned by listener and mean loudspeaker position", "anchors": ["spaudiopy/decoder.py:LoudspeakerSetup.__init__", "spaudiopy/decoder.py:check_listener_inside"]}
{"id": "C99", "title": "Vertex normals point outwards", "statement": "calculate_vertex_normals of a hull without faces coplanar with the barycenter gives every vertex of a face a normal with positive dot product with the direction from the barycenter to that vertex, of unit length with normalize=True; points that are not vertices of the hull get zero.", "quantifier": "every layout, triangulation and epsilon >= 0", "why_tests_cant": "all layouts", "anchors": ["spaudiopy/decoder.py:calculate_vertex_normals", "spaudiopy/decoder.py:calculate_face_normals"]}
{"id": "C100", "title": "Binaural rendering of a spatial impulse response on loudspeakers", "statement": "render_binaural_loudspeaker_sdm(p, gains, setup, fs, None) is the binaural signal of the loudspeaker signals p[s] gains[s, l]: the sum over all loudspeakers not silent of their signals, attenuated by distance, convolved with the nearest HRIR. A post equalisation function receives those loudspeaker signals and its result is rendered instead; its exceptions are passed on. A different number of gains and samples, or of gain columns or equalised rows and loudspeakers, raises AssertionError.", "quantifier": "every signal, gain matrix, setup, HRIR set and post equalisation function", "why_tests_cant": "all signals, setups and functions", "anchors": ["spaudiopy/parsa.py:render_binaural_loudspeaker_sdm", "spaudiopy/decoder.py:LoudspeakerSetup.loudspeaker_signals", "spaudiopy/decoder.py:LoudspeakerSetup.binauralize"]}
{"id": "C101", "title": "File methods of the signal classes", "statement": "MonoSignal.from_file accepts exactly files with one channel, MultiSignal.from_file exactly those with several (ValueError otherwise), AmbiBSignal.from_file exactly those with four (ValueError for one channel, AssertionError for other numbers); the channels keep their order and the rate is that of the file. A requested fs that differs from the file raises ValueError. x.save(f) followed by type(x).from_file(f) returns x for a MonoSignal, a MultiSignal of two or more equally long channels and an AmbiBSignal including W, X, Y and Z; a MultiSignal with a single channel can only be read back as MonoSignal.", "quantifier": "every file content, signal and requested rate", "why_tests_cant": "all signals and channel counts", "anchors": ["spaudiopy/sig.py:MonoSignal.from_file", "spaudiopy/sig.py:MultiSignal.from_file", "spaudiopy/sig.py:AmbiBSignal.from_file", "spaudiopy/sig.py:MonoSignal.save", "spaudiopy/io.py:save_audio"]}
{"id": "C102", "title": "Energy of AllRAP2 gains", "statement": "allrap2 is said to be an energy preserving variant of AllRAP. The energy of its gains is the same for every source direction, the real number E(N) = sum (2n+1) P_n^2 / sum (2n+2) P_n^2 with the max-rE weights P_n, at most that with imaginary loudspeakers, for every kernel that is a design of sufficient strength.", "quantifier": "every layout, kernel design of strength 2N, order and source direction", "why_tests_cant": "all layouts and directions; the normalisation uses 2(n+1) where 2n+1 is needed, so the energy is below one (between 1/2 and 1)", "anchors": ["spaudiopy/decoder.py:allrap2"]}
{"id": "C103", "title": "The imaginary loudspeaker fills the hole", "statement": "find_imaginary_loudspeaker returns the position of one loudspeaker at the mean distance of the rim, outwards through the hole left by the removed faces (opposite to the area weighted normals of the remaining faces); it rejects a closed hull and more than one rim.", "quantifier": "every layout and set of removed faces", "why_tests_cant": "all layouts and hole shapes", "anchors": ["spaudiopy/decoder.py:find_imaginary_loudspeaker"]}
{"id": "C104", "title": "VBAP with retained outside sources", "statement": "vbap(src, hull, retain_outside=True) pans on the hull with the imaginary loudspeaker and drops its gain: a source in a real face gets its usual gains, one in a face of the imaginary loudspeaker keeps the gains of the real corners without renormalisation, so that it fades towards the hole and, with loudspeakers at equal distance, its energy never exceeds one; simplices given by the caller raise AssertionError, a setup without Ambisonic hull or without imaginary loudspeakers ValueError.", "quantifier": "every layout, imaginary loudspeaker, source and norm", "why_tests_cant": "all layouts and source directions", "anchors": ["spaudiopy/decoder.py:vbap", "spaudiopy/decoder.py:LoudspeakerSetup.ambisonics_setup"]}
{"id": "C105", "title": "Convolving signals", "statement": "MonoSignal.conv(h) replaces the samples by the linear convolution with h and keeps the rate: all len(x)+len(h)-1 samples by default, the len(x) samples from (len(h)-1)//2 on with mode='same', those of complete overlap with mode='valid'; empty operands raise ValueError. MultiSignal.conv(irs) does so channel by channel; channels without a filter keep their samples and filters without a channel are not used.", "quantifier": "every signal, filter list and mode", "why_tests_cant": "all lengths and modes", "anchors": ["spaudiopy/sig.py:MonoSignal.conv", "spaudiopy/sig.py:MultiSignal.conv"]}
{"id": "C106", "title": "Stereo downmix of B-format", "statement": "b_to_stereo returns L = W + (X+Y)/sqrt(2) and R = W + (X-Y)/sqrt(2) sample by sample; mirroring the sound field left to right swaps the channels; a horizontal plane wave from azimuth phi appears with gains 1+cos(phi-45 deg) and 1+cos(phi+45 deg).", "quantifier": "every B-format signal and direction", "why_tests_cant": "all signals and directions", "anchors": ["spaudiopy/process.py:b_to_stereo"]}
{"id": "C107", "title": "Stacking two arrays", "statement": "stack joins two two-dimensional arrays along the same-sized or the smaller dimension, the first array first, and raises ValueError if they have no common dimension.", "quantifier": "every pair of arrays", "why_tests_cant": "all shapes; in fact only equal shapes that are not square are accepted", "anchors": ["spaudiopy/utils.py:stack"]}
{"id": "C108", "title": "RMS level", "statement": "rms(x)**2 times the number of samples is the energy of x; rms lies between the smallest and the largest sample magnitude, is zero exactly for silence, and a gain c multiplies it by |c|, i.e. raises db(rms(x)) by db(c).", "quantifier": "every non-empty signal and gain", "why_tests_cant": "all signals", "anchors": ["spaudiopy/utils.py:rms", "spaudiopy/utils.py:db"]}
{"id": "C109", "title": "test_diff is a distance", "statement": "test_diff of arrays of equal size is the sum of the magnitudes of their differences: symmetric, zero exactly for equal arrays, obeying the triangle inequality, and reported when it exceeds the limit. A single value is compared with every element; other different sizes raise ValueError.", "quantifier": "every pair of arrays and limit", "why_tests_cant": "all sizes and values", "anchors": ["spaudiopy/utils.py:test_diff"]}
{"id": "C110", "title": "Energy vector of weighted panning functions", "statement": "For the gains g = bandlimited_dirac(N, angle to the source, w_n) of loudspeakers on a design of strength 2N+1, r_E points to the source (or away from it) with magnitude depending on w_n only: |sum (n+1) 2 w_n w_(n+1)| / sum (2n+1) w_n^2, the sums up to the order. Its largest value over all weights is the largest root of the Legendre polynomial P_(N+1), reached by w_n = P_n of that root; the value for max_rE_weights(N) is given in closed form.", "quantifier": "every design, order, weights and source direction", "why_tests_cant": "all designs, weights and directions; optimality over a continuum of weights", "anchors": ["spaudiopy/sph.py:max_rE_weights", "spaudiopy/sph.py:r_E", "spaudiopy/sph.py:bandlimited_dirac"]}
{"id": "C111", "title": "Shape of the max-rE weights", "statement": "max_rE_weights(N) returns N+1 weights starting at one that strictly decrease with the order; all are positive exactly for N <= 1224, and for higher orders the last one is negative.", "quantifier": "every order", "why_tests_cant": "all orders; the sign changes between orders 1224 and 1225, where the last weight is about 8e-9", "anchors": ["spaudiopy/sph.py:max_rE_weights"]}
{"id": "C112", "title": "Decoding on designs keeps the direction", "statement": "A source encoded by src_to_sh and decoded by sad, mad or epad on loudspeakers forming a design of strength 2N+1 has an energy vector pointing to the source with magnitude N/(N+1); with weights per order applied before decoding the magnitude is that of C110. Rotating the sound field with rotate_sh before decoding rotates the energy vector.", "quantifier": "every loudspeaker design, order, signal, direction and rotation", "why_tests_cant": "all designs, directions and rotations", "anchors": ["spaudiopy/decoder.py:sad", "spaudiopy/decoder.py:mad", "spaudiopy/decoder.py:epad", "spaudiopy/sph.py:src_to_sh", "spaudiopy/sph.py:r_E", "spaudiopy/sph.py:rotate_sh"]}
{"id": "C113", "title": "Projection on the sphere", "statement": "project_on_sphere(x, y, z) of a point other than the origin is the point divided by its distance: it lies on the unit sphere, is the closest point of the sphere, depends on the direction only, and projecting again changes nothing.", "quantifier": "every point except the origin", "why_tests_cant": "all points", "anchors": ["spaudiopy/sph.py:project_on_sphere", "spaudiopy/utils.py:cart2sph", "spaudiopy/utils.py:sph2cart"]}
{"id": "C114", "title": "Condition number of a grid", "statement": "check_cond_sht returns the condition number of the Gram matrix of the spherical harmonics: at least one, one on designs of strength 2N for real and complex harmonics, infinite with fewer points than coefficients, unchanged by rotating the grid. It bounds the error of sht_lstsq: disturbing the samples of a band limited function changes the coefficients by a squared relative error of at most the condition number times that of the samples. The message appears exactly above the limit; the default limit reports order zero always and no other order on designs.", "quantifier": "every grid, order, limit, coefficients and disturbance", "why_tests_cant": "all grids and disturbances", "anchors": ["spaudiopy/sph.py:check_cond_sht", "spaudiopy/sph.py:sht_lstsq"]}
{"id": "C115", "title": "Indexing and building signal objects", "statement": "len, indexing (also from the end), signal and channel access of MonoSignal, MultiSignal and HRIRs return the samples, channels or responses they were built from and raise IndexError outside; MultiSignal keeps one rate for all channels; assigning signal keeps the rate or raises without a change; resample sets the new rate; AmbiBSignal.sh_to_b maps ACN channels to W, X, Y, Z with their factors and rejects everything but four equally long channels.", "quantifier": "every signal object, index, array and rate", "why_tests_cant": "all lengths and indices, including every error path", "anchors": ["spaudiopy/sig.py:MonoSignal", "spaudiopy/sig.py:MultiSignal", "spaudiopy/sig.py:AmbiBSignal.sh_to_b", "spaudiopy/sig.py:HRIRs"]}
{"id": "C116", "title": "Lines of plot.spectrum", "statement": "A sinusoid of amplitude A that fits the signal is drawn as one line of height |A| at its frequency and nothing else; a constant has its magnitude at 0 Hz; scale_mag multiplies by half the number of samples; the frequency axis fits every drawn signal, signals of different length are rejected.", "quantifier": "every length, frequency, amplitude and phase", "why_tests_cant": "all lengths and frequencies", "anchors": ["spaudiopy/plot.py:spectrum"]}
{"id": "C117", "title": "Curves and legend of plot.freq_resp", "statement": "The drawn curves are the magnitudes in dB, not below -280 dB, or the values themselves; the default vertical axis ends at the largest value and spans ylim; magnitudes and frequencies of different length are rejected; the legend shows the given labels, which the call leaves unchanged.", "quantifier": "every frequency list, magnitudes, labels and options", "why_tests_cant": "all inputs, including the arguments after the call", "anchors": ["spaudiopy/plot.py:freq_resp"]}
{"id": "C118", "title": "plot.transfer_function shows magnitude and phase", "statement": "The curves are 20 log10 of the magnitude and the unwrapped phase of the transfer function, limited to -280 dB.", "quantifier": "every complex transfer function", "why_tests_cant": "a continuum of complex values", "anchors": ["spaudiopy/plot.py:transfer_function"]}
{"id": "C119", "title": "RMS map of an Ambisonic signal", "statement": "sh_rms_map draws, for every direction of the grid and the poles, the RMS of the beamformer over the whole signal: with the default weights a single source is drawn with the RMS of its signal in its own direction and nowhere more. Wrong numbers of channels or weights are rejected. Colour limits are those given, and a call does not influence later calls.", "quantifier": "every signal, order, length, weights, limits and sequence of two calls", "why_tests_cant": "all lengths (the loop over blocks starts above 65536 samples), orders and directions, state carried between calls", "anchors": ["spaudiopy/plot.py:sh_rms_map", "spaudiopy/sph.py:hypercardioid_modal_weights", "spaudiopy/sph.py:sh_matrix"]}
{"id": "C120", "title": "Points of plot.doa", "statement": "Every direction of arrival is drawn inside the axes at its azimuth modulo a full turn; points are drawn from last to first, sizes are proportional to the pressure with the largest at the given size, colours are the time in ms; arrays of different lengths are rejected; the arguments are left unchanged.", "quantifier": "every list of directions, pressures, colours, size and sampling rate", "why_tests_cant": "all azimuths of any number of turns, and the arguments after the call", "anchors": ["spaudiopy/plot.py:doa"]}
{"id": "C121", "title": "Points of plot.spherical_function_map", "statement": "The map shows every value (in dB if asked) at its direction, with azimuths from -pi to 3 pi inside of (-pi, pi]; plotting again gives the same points, and the arguments are left unchanged.", "quantifier": "every function, directions and scale", "why_tests_cant": "a continuum of azimuths, and the arguments after the call", "anchors": ["spaudiopy/plot.py:spherical_function_map"]}
{"id": "C122", "title": "Interaural maps of an HRIR set", "statement": "hrirs_ild_itd draws the level difference in dB and the time difference in ms of every direction of the set, with azimuths inside of [-pi, pi) and colour limits symmetric about zero, which are the given ones or the largest magnitude.", "quantifier": "every HRIR set and limits", "why_tests_cant": "all directions and values", "anchors": ["spaudiopy/plot.py:hrirs_ild_itd"]}
{"id": "C123", "title": "Measures of plot.decoder_performance", "statement": "The renderer is selected by its documented name in any case, other names raise ValueError. Amplitude and energy are the sums of gains and squared gains; the cosine of half the spread is the length of the energy vector of the gains without distance compensation, the error is its angle to the direction of the source. Both do not depend on the level. Nearest loudspeaker selection has no spread and the smallest angle to a loudspeaker as error; the sampling decoder on a design of strength 2N+1 has the spread 2 arccos(N/(N+1)) and no error in every direction.", "quantifier": "every setup, gains, direction, order and design", "why_tests_cant": "a continuum of directions and gains", "anchors": ["spaudiopy/plot.py:decoder_performance", "spaudiopy/decoder.py:nearest_loudspeaker", "spaudiopy/decoder.py:sad"]}
{"id": "C124", "title": "Faces, colours and labels of plot.hull", "statement": "Every face of the hull is drawn once, filled if valid, else dashed; face j has the colour j; a wrong number of colours raises AssertionError; loudspeakers are labelled with their index at their position, inside of the default axes.", "quantifier": "every setup, faces, colours and limits", "why_tests_cant": "all setups and subsets of valid faces", "anchors": ["spaudiopy/plot.py:hull"]}
{"id": "C125", "title": "Curves of plot.polar", "statement": "Every value is drawn exactly once at its angle: non-negative ones on the first curve, negative ones with their magnitude on the second, in dB if asked; the radial axis is the given one or the documented default.", "quantifier": "every list of angles and values", "why_tests_cant": "all values and signs", "anchors": ["spaudiopy/plot.py:polar"]}
{"id": "C126", "title": "Cells of plot.sh_bar", "statement": "Every coefficient of every signal is drawn exactly once with its (absolute, dB) value at the position of its group and channel; positions increase from signal to signal.", "quantifier": "every number of signals, channels and groups", "why_tests_cant": "all numbers of signals and groups", "anchors": ["spaudiopy/plot.py:sh_bar"]}
{"id": "C127", "title": "Surfaces of spherical harmonics coefficients", "statement": "sh_coeffs draws every direction at the distance of the magnitude of the inverse transform, coloured by its phase; real coefficients have phase zero or pi. sh_coeffs_overlay and sh_coeffs_subplot draw every entry as sh_coeffs draws it, with its title; too few titles raise IndexError.", "quantifier": "every list of coefficients, type, grid and titles", "why_tests_cant": "a continuum of directions, all numbers of entries", "anchors": ["spaudiopy/plot.py:sh_coeffs", "spaudiopy/plot.py:sh_coeffs_overlay", "spaudiopy/plot.py:sh_coeffs_subplot"]}
{"id": "C128", "title": "Signals of allrad2", "statement": "Decoding a source encoded with src_to_sh at order N with allrad2 gives every loudspeaker the sum over the kernel directions of its allrap2 gain there times the order-limited plane wave 1/J sum (2n+1) P_n(cos angle) of the source; allrad2 is linear in the input. allrad and allrad2 give no output for an input without exactly (N+1)**2 channels: a different order raises AssertionError and changes nothing, surplus channels raise ValueError.", "quantifier": "every source direction and signal, every layout, kernel grid and order, every number of channels", "why_tests_cant": "continuum of directions, all layouts and channel counts", "anchors": ["spaudiopy/decoder.py:allrad2", "spaudiopy/decoder.py:allrap2", "spaudiopy/decoder.py:allrad", "spaudiopy/sph.py:src_to_sh"]}
{"id": "C129", "title": "What ambisonics_setup prepares", "statement": "A completed ambisonics_setup() stores as Ambisonic hull the hull of the loudspeakers followed by the imaginary ones (none without update_hull, the given positions, or the one found by find_imaginary_loudspeaker), as kernel the design of degree 2 N_kernel, and as characteristic order the given one or that of the layout; it completes exactly if an order is given or can be computed, N_kernel is given, the needed imaginary loudspeaker exists, and both hulls and the design exist.", "quantifier": "every layout, option and set of imaginary loudspeakers", "why_tests_cant": "all layouts and combinations of options", "anchors": ["spaudiopy/decoder.py:LoudspeakerSetup.ambisonics_setup", "spaudiopy/decoder.py:find_imaginary_loudspeaker", "spaudiopy/grids.py:load_n_design"]}
{"id": "C130", "title": "Zeros and poles drawn", "statement": "zeropole() draws all roots of numerator and denominator with their multiplicities: at every point of the plane the polynomial with the given coefficients is its first coefficient other than zero times the product of the differences to the drawn zeros (poles); in the z plane the unit circle is drawn and visible, and nothing matplotlib would show is cut off.", "quantifier": "every pair of coefficient lists and limits", "why_tests_cant": "polynomials of all degrees and all points of the plane", "anchors": ["spaudiopy/plot.py:zeropole"]}
{"id": "C131", "title": "Function on the sphere drawn as points", "statement": "spherical_function() draws every value in its direction, at the distance of its magnitude, coloured by the value; the colour range is the smallest that includes all values, 0 and 1; all drawn points are visible.  set_aspect_equal3d() sets the smallest common limits that include those of all axes.", "quantifier": "every list of values and directions", "why_tests_cant": "all values, directions and limits", "anchors": ["spaudiopy/plot.py:spherical_function", "spaudiopy/plot.py:set_aspect_equal3d", "spaudiopy/utils.py:sph2cart"]}
{"id": "C132", "title": "Normals drawn with a setup", "statement": "hull_normals() labels every loudspeaker with its number at its position, draws for every face an arrow from its centroid that is perpendicular to it and does not point inwards, for every vertex an arrow that points away from the barycenter, and all of it is visible; either kind of arrow can be left out.", "quantifier": "every setup", "why_tests_cant": "all layouts, also degenerate or distant ones", "anchors": ["spaudiopy/plot.py:hull_normals", "spaudiopy/plot.py:set_aspect_equal3d", "spaudiopy/decoder.py:calculate_face_normals", "spaudiopy/decoder.py:calculate_vertex_normals"]}
{"id": "C133", "title": "Comparison of A and B format signals", "statement": "compare_ambi() draws the first four channels of both signals over time.", "quantifier": "every pair of multichannel signals", "why_tests_cant": "it is not called by any test", "anchors": ["spaudiopy/plot.py:compare_ambi", "spaudiopy/sig.py:MultiSignal"]}
{"id": "C134", "title": "Order used by the inverse transform", "statement": "inverse_sht(F, azi, zen, sh_type, N_sph=N) evaluates the first (N+1)^2 channels of F and ignores the rest; with fewer channels it raises ValueError; without N_sph it uses the largest full order contained in the channels. A given Y_nm is applied to the same channels, succeeds exactly when it has as many columns as channels are kept (all of them if there are fewer than (N+1)^2), and changes nothing if it is the SH matrix of that order.", "quantifier": "every coefficient matrix, set of directions, order and matrix, real or complex", "why_tests_cant": "all numbers of channels and orders", "anchors": ["spaudiopy/sph.py:inverse_sht", "spaudiopy/sph.py:sh_matrix"]}
{"id": "C135", "title": "Figure of plot.decoder_performance", "statement": "decoder_performance draws its four measures at all azimuths -180 + i*azi_steps and zenith angles j*ele_steps (degrees) up to one step beyond 180, each value belonging to the direction at which it is drawn, namely the measures of the gains the chosen renderer gives for that direction alone (at order N_sph or else the characteristic order): epad with enough loudspeakers shows unit energy everywhere, as do VBAP and VBIP on loudspeakers at unit distance whose triplets cover the sphere, nearest loudspeaker selection no spread and the smallest angle to a loudspeaker, and the Ambisonic decoders on designs no angular error. Amplitude and energy are never clipped from above, spread and error are clipped at 90 degrees, loudspeakers are marked at their directions; an unknown renderer is a ValueError and leaves the setup alone.", "quantifier": "every setup, renderer, steps and order", "why_tests_cant": "all step sizes; the default steps divide 180 degrees, so tests never see the row beyond it", "anchors": ["spaudiopy/plot.py:decoder_performance", "spaudiopy/sph.py:sh_matrix", "spaudiopy/decoder.py:epad", "spaudiopy/decoder.py:nearest_loudspeaker"]}
{"id": "C136", "title": "Filter bank bands lie where the table says", "statement": "In the bank returned by frac_octave_filterbank, band j+1 begins and band j ends at the edge f_low*2^((2j-1)/(2n)): outside its two edges, beyond the overlap and the resolution of the bins, a band has gain exactly 0, and between them exactly 1. At every bin at most two bands have a gain, and they are neighbours.", "quantifier": "every n >= 1, size, sampling rate, frequency limits, overlap from 0 to 0.5, slope, mode and bin", "why_tests_cant": "all edges, overlaps and rounding positions; plots show only one configuration", "anchors": ["spaudiopy/process.py:frac_octave_filterbank"]}
{"id": "C137", "title": "angle_between is the angle at the initial point", "statement": "angle_between(v1, v2, vi) is the Euclidean angle between 0 and pi at vi (at the origin without vi): it satisfies the law of cosines, the angles of a triangle sum to pi, and it does not depend on the order of v1 and v2 nor on a common shift, rotation or enlargement of the points.", "quantifier": "all points v1, v2 different from the initial point, with and without vi", "why_tests_cant": "all triples of points in space", "anchors": ["spaudiopy/utils.py:angle_between", "spaudiopy/decoder.py:LoudspeakerSetup.pop_triangles"]}
{"id": "C138", "title": "Turning loudspeakers, listener and sound field together changes no loudspeaker signal", "statement": "Let a rotation turn the loudspeakers and the listener, and the source positions or the Ambisonic signals (rotate_sh with the same angles). LoudspeakerSetup of the turned points is the turned setup (same valid faces, areas, distances), pop_triangles removes the same faces and the characteristic order stays. vbap, vbip (also with retain_outside) and nearest_loudspeaker return the same gains, and sad, mad and epad the same loudspeaker signals.", "quantifier": "all setups, sources, signals and rotations; epad when the loudspeakers are at least (N+1)^2 in general position; qhull listing the same faces", "why_tests_cant": "all rotations and layouts; relates two runs of the whole rendering chain", "anchors": ["spaudiopy/decoder.py:LoudspeakerSetup", "spaudiopy/decoder.py:vbap", "spaudiopy/decoder.py:vbip", "spaudiopy/decoder.py:nearest_loudspeaker", "spaudiopy/decoder.py:sad", "spaudiopy/decoder.py:mad", "spaudiopy/decoder.py:epad", "spaudiopy/sph.py:rotate_sh", "spaudiopy/utils.py:rotation_euler"]}
{"id": "C139", "title": "The numbering of the loudspeakers does not matter", "statement": "Listing the same loudspeakers in another order gives a setup with the same positions, distances and valid triangles (at the new numbers), and pop_triangles removes the same triangles. vbap returns the same gains for every source that lies in at most one triangle up to its tolerance, nearest_loudspeaker for every source with a single nearest loudspeaker, and sad, mad and epad return the same signals, all at the new numbers. A source next to an edge is rendered by the triangle listed first, so its gains depend on the numbering by about the tolerance.", "quantifier": "all setups, permutations, sources and signals; qhull finding the same triangles in whatever order; epad when the loudspeakers are at least (N+1)^2 in general position", "why_tests_cant": "all permutations of all layouts; relates two runs", "anchors": ["spaudiopy/decoder.py:LoudspeakerSetup", "spaudiopy/decoder.py:LoudspeakerSetup.pop_triangles", "spaudiopy/decoder.py:vbap", "spaudiopy/decoder.py:nearest_loudspeaker", "spaudiopy/decoder.py:sad", "spaudiopy/decoder.py:mad", "spaudiopy/decoder.py:epad"]}
{"id": "C140", "title": "Superposition: a weighted sum of signals is rendered as the weighted sum of the renderings", "statement": "src_to_sh, sht, sht_lstsq, inverse_sht, rotate_sh, sh_to_b, b_to_sh, n3d_to_sn3d, sn3d_to_n3d, sad, mad and epad applied to a*x + b*y return a times the result for x plus b times the result for y, and raise for all inputs of a shape or for none. Two groups of sources encoded in one call and decoded give the sum of the loudspeaker signals of the two groups. LoudspeakerSetup.binauralize does so up to 10e-6 per loudspeaker and input times the absolute sum of a response, and exactly when no loudspeaker is quiet without being silent: signals that never exceed 10e-6 at the listener are dropped, so twice a signal need not give twice the result.", "quantifier": "all signals, weights, shapes, directions, orders, rotations, layouts and HRIR sets; all pseudoinverse and SVD routines, all least squares routines of least norm", "why_tests_cant": "all pairs of signals; relates three runs", "anchors": ["spaudiopy/sph.py:src_to_sh", "spaudiopy/sph.py:sht", "spaudiopy/sph.py:sht_lstsq", "spaudiopy/sph.py:inverse_sht", "spaudiopy/sph.py:rotate_sh", "spaudiopy/sph.py:sh_to_b", "spaudiopy/sph.py:b_to_sh", "spaudiopy/sph.py:n3d_to_sn3d", "spaudiopy/decoder.py:sad", "spaudiopy/decoder.py:mad", "spaudiopy/decoder.py:epad", "spaudiopy/decoder.py:LoudspeakerSetup.binauralize"]}
{"id": "C141", "title": "The unit of length does not matter", "statement": "Multiplying all loudspeaker positions and the listener position by the same c > 0 (metres to centimetres) gives the setup with positions, centroids, distances multiplied by c, normals and areas by c^2 and the same triangles; get_characteristic_order, sad, mad, epad and vbip return the same, vbap and nearest_loudspeaker return the same gains times c^a, and pop_triangles drops the same triangles. sad, mad and epad with an order given do not depend on the distance of any loudspeaker. The construction of the setup is unit free only while no facet is seen edge-on up to the absolute tolerance 10e-6 of calculate_face_normals: an octahedron of radius 0.01 loses triangles in pop_triangles that the octahedron of radius 1 keeps.", "quantifier": "all layouts, units, sources, distance exponents, orders, signals, pop_triangles limits; all hull, pseudoinverse and SVD routines, all least squares routines", "why_tests_cant": "all units and layouts; relates two runs", "anchors": ["spaudiopy/decoder.py:LoudspeakerSetup.__init__", "spaudiopy/decoder.py:vbap", "spaudiopy/decoder.py:vbip", "spaudiopy/decoder.py:nearest_loudspeaker", "spaudiopy/decoder.py:LoudspeakerSetup.pop_triangles", "spaudiopy/decoder.py:LoudspeakerSetup.get_characteristic_order", "spaudiopy/decoder.py:sad", "spaudiopy/decoder.py:mad", "spaudiopy/decoder.py:epad", "spaudiopy/decoder.py:calculate_face_normals"]}
{"id": "C142", "title": "Signals can be processed in blocks", "statement": "src_to_sh, sht, sht_lstsq, inverse_sht, rotate_sh, sh_to_b, b_to_sh, n3d_to_sn3d, sn3d_to_n3d, sad, mad and epad treat each sample by itself: for samples selected, repeated or reordered the result is selected, repeated or reordered likewise, so that two consecutive blocks give the two parts of the result for the whole signal. LoudspeakerSetup.binauralize is time invariant: D zeros before the signals delay the result by D samples, D zeros after them append D zeros. The results for consecutive blocks, the second one delayed, add up to the result for the whole signal up to 3 * 10e-6 per loudspeaker times the absolute sum of a response, and exactly when no loudspeaker is quiet without being silent in a block; a quiet block after a loud one is dropped when processed alone.", "quantifier": "all signals, block lengths, delays, shapes, directions, orders, rotations, layouts and HRIR sets; all pseudoinverse and SVD routines, all least squares routines of least norm", "why_tests_cant": "all ways to cut all signals; relates several runs", "anchors": ["spaudiopy/sph.py:src_to_sh", "spaudiopy/sph.py:sht", "spaudiopy/sph.py:sht_lstsq", "spaudiopy/sph.py:inverse_sht", "spaudiopy/sph.py:rotate_sh", "spaudiopy/sph.py:sh_to_b", "spaudiopy/sph.py:b_to_sh", "spaudiopy/sph.py:n3d_to_sn3d", "spaudiopy/decoder.py:sad", "spaudiopy/decoder.py:mad", "spaudiopy/decoder.py:epad", "spaudiopy/decoder.py:LoudspeakerSetup.binauralize"]}
{"id": "C143", "title": "A mirrored scene is rendered as the mirror image", "statement": "sh_matrix in a direction mirrored at the horizontal, median or frontal plane differs from the original by signs that depend on order and degree only, so src_to_sh of mirrored sources gives the signals with these signs. Mirrored loudspeakers play the mirrored signals with the same loudspeaker signals (sad, mad, epad) and get the same vbap, vbip and nearest_loudspeaker gains for mirrored sources; LoudspeakerSetup of mirrored points is the mirrored setup, provided no face is seen edge-on within the tolerance of calculate_face_normals, and pop_triangles and the characteristic order are the same. On a layout that is its own mirror image the mirrored sound field or source gives the same signals or gains at the mirror images (vbap: for sources in at most one triangle; nearest_loudspeaker: with a single nearest one), and with a symmetric HRIR set binauralize exchanges the ears.", "quantifier": "all directions, sources, signals, orders, planes, layouts and symmetric HRIR sets; epad when the loudspeakers are at least (N+1)^2 in general position; binauralize when every loudspeaker has a single nearest HRIR direction; qhull listing the same faces", "why_tests_cant": "all scenes; relates two runs on different inputs", "anchors": ["spaudiopy/sph.py:sh_matrix", "spaudiopy/sph.py:src_to_sh", "spaudiopy/decoder.py:LoudspeakerSetup", "spaudiopy/decoder.py:vbap", "spaudiopy/decoder.py:vbip", "spaudiopy/decoder.py:nearest_loudspeaker", "spaudiopy/decoder.py:sad", "spaudiopy/decoder.py:mad", "spaudiopy/decoder.py:epad", "spaudiopy/decoder.py:LoudspeakerSetup.binauralize"]}
{"id": "C144", "title": "Ambisonic signals are scalable", "statement": "The first (N+1)^2 channels of an ambisonic signal of higher order are the signal of order N. src_to_sh and sht at order N give the first (N+1)^2 channels of the same call at a higher order; rotate_sh, n3d_to_sn3d and sn3d_to_n3d commute with dropping the higher orders; sad, mad, epad and inverse_sht at order N give the same with and without them, and silent higher orders do not change inverse_sht. allrad and allrad2 refuse every number of channels other than (N+1)^2 instead (AssertionError when a complete order is too many), and the lower orders of sht_lstsq do depend on the order requested.", "quantifier": "all signals, directions, orders N and N' >= N, rotation angles, layouts, weights and numbers of channels; rotate_sh from first order", "why_tests_cant": "all pairs of orders; relates runs on inputs of different shapes", "anchors": ["spaudiopy/sph.py:src_to_sh", "spaudiopy/sph.py:sht", "spaudiopy/sph.py:inverse_sht", "spaudiopy/sph.py:sht_lstsq", "spaudiopy/sph.py:rotate_sh", "spaudiopy/sph.py:n3d_to_sn3d", "spaudiopy/sph.py:sn3d_to_n3d", "spaudiopy/decoder.py:sad", "spaudiopy/decoder.py:mad", "spaudiopy/decoder.py:epad", "spaudiopy/decoder.py:allrad", "spaudiopy/decoder.py:allrad2"]}
{"id": "C145", "title": "The analysis turns with the sound field", "statement": "Analysing an ambisonic signal after rotate_sh, or after mirroring it, in the turned (mirrored) directions gives what the analysis of the original signal gives in the original directions: the signals of sh_beamform with sh_beamformer_from_pattern (all patterns), with sh_mvdr and of sh_lcmv, or the same error; the eigenvalues and the result of estimate_num_sources; the power and coherence of directions in both parts returned by separate_cov; and the MUSIC spectrum wherever the eigenvalues of signal and noise subspace differ (where they do not, the spectrum is that of whatever basis eigh returned). pseudo_intensity of turned first-order signals returns the turned directions with the same radii wherever the radius is at least 10e-15, for every number of jobs; sh_to_b of the rotated signal has the same W and the turned X, Y, Z; r_E of turned loudspeakers is the turned energy vector of the same length.", "quantifier": "all signals, covariance estimates (multiples of X X^T with diagonal loading), rotations, mirrors, directions, patterns, gains, numbers of sources, window lengths, orders, jobs and schedules; order at least 1 for rotate_sh", "why_tests_cant": "all rotations and all signals; equality of whole analyses", "anchors": ["spaudiopy/parsa.py:sh_beamform", "spaudiopy/parsa.py:sh_beamformer_from_pattern", "spaudiopy/parsa.py:sh_mvdr", "spaudiopy/parsa.py:sh_lcmv", "spaudiopy/parsa.py:sh_music", "spaudiopy/parsa.py:separate_cov", "spaudiopy/parsa.py:estimate_num_sources", "spaudiopy/parsa.py:pseudo_intensity", "spaudiopy/sph.py:rotate_sh", "spaudiopy/sph.py:sh_to_b", "spaudiopy/sph.py:r_E"]}
{"id": "C146", "title": "Only relative levels matter to the analysis", "statement": "Multiplying all signals by a common gain does not change the weights of sh_mvdr and sh_lcmv computed from their covariance, nor the MUSIC spectrum where the eigenvalues of signal and noise subspace differ; eigenvalues and both parts of separate_cov at a given split point grow with the square of the gain; pseudo_intensity keeps azimuth and zenith (the zenith wherever the radius is at least 10e-15 at both levels), and its radius grows with the square; r_E, energy_decay, itds_from_hrirs (one gain per ear) and the output of match_loudness (level of the input) do not change. estimate_num_sources, and with it separate_cov by default, should not depend on the level either.", "quantifier": "all signals, covariances, gains other than zero (positive for match_loudness), directions, window lengths, orders, jobs and schedules; all eigh routines, linear resamplers and band-passes", "why_tests_cant": "all gains; relates two runs", "anchors": ["spaudiopy/parsa.py:sh_mvdr", "spaudiopy/parsa.py:sh_lcmv", "spaudiopy/parsa.py:sh_music", "spaudiopy/parsa.py:separate_cov", "spaudiopy/parsa.py:estimate_num_sources", "spaudiopy/parsa.py:pseudo_intensity", "spaudiopy/sph.py:r_E", "spaudiopy/process.py:energy_decay", "spaudiopy/process.py:match_loudness", "spaudiopy/process.py:itds_from_hrirs"]}
{"id": "C147", "title": "The unit of time does not matter", "statement": "With all sampling rates and frequencies multiplied by k > 0 and all times divided by k, trim, trim_audio and resample of the signal classes, frac_octave_filterbank (gains), subband_levels, ilds_from_hrirs, magls_bin (given f_trans), pulsed_noise and binaural_coloration_compensation (radius divided by k) return the same samples; itds_from_hrirs returns its result divided by k; the centre frequencies and band limits of frac_octave_filterbank and the frequency axis of plot.spectrum are multiplied by k, the time axis of plot.doa divided by k.", "quantifier": "all factors, signals, rates, times, frequencies, HRIR sets, resamplers and band-passes that depend on ratios of frequencies only", "why_tests_cant": "all factors; relates two runs", "anchors": ["spaudiopy/sig.py:MonoSignal.trim", "spaudiopy/sig.py:MultiSignal.trim", "spaudiopy/sig.py:trim_audio", "spaudiopy/sig.py:MonoSignal.resample", "spaudiopy/process.py:frac_octave_filterbank", "spaudiopy/process.py:subband_levels", "spaudiopy/process.py:ilds_from_hrirs", "spaudiopy/process.py:itds_from_hrirs", "spaudiopy/process.py:pulsed_noise", "spaudiopy/decoder.py:magls_bin", "spaudiopy/sph.py:binaural_coloration_compensation", "spaudiopy/plot.py:spectrum", "spaudiopy/plot.py:doa"]}
{"id": "C148", "title": "Directions are treated one by one", "statement": "vbap and vbip of a list of sources return the rows of two consecutive calls for its two parts, leave the setup in the same state, and raise if and only if one of the two calls raises; sources that are selected, repeated or put in another order give the selected rows. The same holds for the rows of vbap over worker pools of any sizes, of allrap, allrap2 (also after the kernel gains were cached), sh_matrix, inverse_sht, sh_beamformer_from_pattern, sh_music and sh_mvdr, and for the indices of HRIRs.nearest_idx.", "quantifier": "all source lists and ways to split, select, repeat and reorder them, all setups and cached states, job counts, orders, patterns, covariance matrices and grids", "why_tests_cant": "all partitions and permutations; relates several runs", "anchors": ["spaudiopy/decoder.py:vbap", "spaudiopy/decoder.py:vbip", "spaudiopy/decoder.py:allrap", "spaudiopy/decoder.py:allrap2", "spaudiopy/sph.py:sh_matrix", "spaudiopy/sph.py:inverse_sht", "spaudiopy/parsa.py:sh_beamformer_from_pattern", "spaudiopy/parsa.py:sh_music", "spaudiopy/parsa.py:sh_mvdr", "spaudiopy/sig.py:HRIRs.nearest_idx"]}
{"id": "C149", "title": "Renderings of spatial impulse responses can be taken apart and put together", "statement": "For render_bsdm with a consistent HRIR set: pressures a*p + b*q from the same directions give a times plus b times the responses; two consecutive parts give the responses of the parts added, the second delayed by the length of the first; the directions of samples with zero pressure do not matter; if all sound comes from one direction the result is scipy.signal.convolve of the pressure and the nearest HRIR; HRIRs equalised by apply_ctf_eq (mode full) give the responses convolved with the equaliser; exchanged ears exchange the responses. All of this for any numbers of jobs of the calls involved. render_stereo_sdm is linear, works part by part, and ignores the directions of silent samples.", "quantifier": "all pressures, directions, HRIR sets, equalisers, job counts and interleavings", "why_tests_cant": "all signals and schedules; relates several runs", "anchors": ["spaudiopy/parsa.py:render_bsdm", "spaudiopy/parsa.py:render_stereo_sdm", "spaudiopy/sig.py:HRIRs.nearest_hrirs", "spaudiopy/sig.py:HRIRs.apply_ctf_eq"]}
{"id": "C150", "title": "The numbering of grid points does not matter", "statement": "For points given in another order, together with their samples and weights, sht and sht_lstsq return the same coefficients, check_cond_sht the same condition number and message, calculate_grid_weights the weights in the new order and the same warning. For an HRIR set with its directions in another order, hrirs_ctf (with its own weights) and magls_bin return the same, ilds_from_hrirs and itds_from_hrirs the values in the new order, and HRIRs.nearest_hrirs, render_bsdm and LoudspeakerSetup.binauralize the same responses.", "quantifier": "all grids, samples, weights, HRIR sets and permutations", "why_tests_cant": "all permutations; relates two runs", "anchors": ["spaudiopy/sph.py:sht", "spaudiopy/sph.py:sht_lstsq", "spaudiopy/sph.py:check_cond_sht", "spaudiopy/grids.py:calculate_grid_weights", "spaudiopy/process.py:hrirs_ctf", "spaudiopy/decoder.py:magls_bin", "spaudiopy/process.py:ilds_from_hrirs", "spaudiopy/process.py:itds_from_hrirs", "spaudiopy/sig.py:HRIRs.nearest_hrirs", "spaudiopy/parsa.py:render_bsdm", "spaudiopy/decoder.py:LoudspeakerSetup.binauralize"]}
{"id": "C151", "title": "Rotations of sound fields compose like rotations of space", "statement": "Two sets of angles give the same sh_rotation_matrix exactly if they give the same rotation_euler; if rotation_euler(t1) @ rotation_euler(t2) == rotation_euler(t3) then the SH rotation matrices multiply in the same way; every orthogonal matrix of determinant one is rotation_euler of some angles; hence any sequence of rotate_sh calls has the effect of one call, and rotate_sh(yaw, pitch, roll) is undone by rotate_sh(-yaw, 0, 0), rotate_sh(0, -pitch, 0), rotate_sh(0, 0, -roll) in this order; sh_mult of two rotated sets of coefficients is the rotated sh_mult.", "quantifier": "every order N >= 1, every angle, every sequence of rotations, all signals", "why_tests_cant": "all orders, angles and sequences of calls of any length; existence of angles for every rotation", "anchors": ["spaudiopy/sph.py:sh_rotation_matrix", "spaudiopy/sph.py:rotate_sh", "spaudiopy/sph.py:sh_mult", "spaudiopy/utils.py:rotation_euler"]}
{"id": "C152", "title": "The transform on the provided grids is an orthogonal projection", "statement": "All weights of equal_angle(N) and gauss(N) are positive. On these grids with their weights, and on t-designs with t >= 2N without: sums over the grid of products of two inverse_sht renderings equal the inner products of the coefficients (real and complex harmonics); for every sampled function f, band limited or not, sht(f) are the unique coefficients whose rendering has the least weighted squared distance from f, and they carry no more energy than f, with equality exactly if f has order N on the grid. On t-designs sht without weights returns what sht_lstsq returns.", "quantifier": "every order N, every sampled function with any number of channels, every set of coefficients", "why_tests_cant": "all orders and all functions, not only those of the order of the transform", "anchors": ["spaudiopy/sph.py:sht", "spaudiopy/sph.py:inverse_sht", "spaudiopy/sph.py:sht_lstsq", "spaudiopy/grids.py:equal_angle", "spaudiopy/grids.py:gauss", "spaudiopy/grids.py:load_t_design"]}
{"id": "C153", "title": "VBAP plays corners and edges with their loudspeakers and follows a moving source", "statement": "A source in the direction of a loudspeaker is played by this loudspeaker alone; a source on an edge by its two loudspeakers, with gains in the ratio of its coordinates, whichever of the triangles is listed first. Moving the source a little changes the gains little, also across edges and corners. Only within the tolerance beside an edge, where a triangle listed earlier keeps a source that has left it by up to 1e-5, the gains jump, by about this tolerance.", "quantifier": "every layout with linearly independent valid triangles, every norm order > 0, every source in a triangle that no triangle without its corners contains up to the tolerance", "why_tests_cant": "continuity quantifies over all nearby sources; all layouts and norms", "anchors": ["spaudiopy/decoder.py:vbap", "spaudiopy/decoder.py:_invert_triplets"]}
{"id": "C154", "title": "Loudspeakers around the listener can play sources from everywhere", "statement": "If the listener is inside the convex hull of the loudspeakers (and no farther from their mean than the centres of the faces, so that LoudspeakerSetup keeps all faces), vbap finds a triangle for every source other than the origin: gains of unit norm, above the tolerance -10e-6, whose loudspeakers render the direction of the source. On such a hull allrap2 with a kernel of sufficient strength plays every source with the same energy.", "quantifier": "every layout, listener inside its hull, source direction and norm order > 0; Qhull returning proper triangles that cover the boundary of the hull", "why_tests_cant": "all layouts and all directions", "anchors": ["spaudiopy/decoder.py:LoudspeakerSetup", "spaudiopy/decoder.py:get_hull", "spaudiopy/decoder.py:vbap", "spaudiopy/decoder.py:allrap2"]}
{"id": "C155", "title": "The face normals are outer normals; normal_limit=90 tells whether the listener is inside", "statement": "calculate_face_normals of a convex hull returns for every face (that is not edge-on to the mean of the loudspeakers up to the tolerance) a vector such that no loudspeaker lies beyond the plane of the face. pop_triangles(normal_limit=90) keeps a valid face exactly if the listener is not beyond its plane; on a setup with all faces valid it keeps all of them exactly if the listener is within the convex hull of the loudspeakers.", "quantifier": "every layout and listener; Qhull returning proper triangles that cover the boundary of the hull; no face coplanar with the mean of the loudspeakers", "why_tests_cant": "all layouts and listener positions", "anchors": ["spaudiopy/decoder.py:calculate_face_normals", "spaudiopy/decoder.py:LoudspeakerSetup.pop_triangles", "spaudiopy/decoder.py:check_normals"]}
{"id": "C156", "title": "With loudspeakers around the listener everything from the setup to the signals works", "statement": "For a layout around the listener ambisonics_setup(update_hull=False) completes; without characteristic_order it computes an order of at least one. From then on every call of vbap, vbip, allrap, allrap2, allrad and allrad2 that fits the order succeeds, in any sequence and any number, with one row of gains per source or one signal per loudspeaker. The result of a call does not depend on the calls made before it. At any point vbap plays every source from its own direction.", "quantifier": "every layout with the listener inside the convex hull (no farther from the mean loudspeaker than the face centres), every kernel grid that can be loaded, every sequence of calls; order left out: some face centre without a loudspeaker in its direction", "why_tests_cant": "all layouts and all call histories", "anchors": ["spaudiopy/decoder.py:LoudspeakerSetup.ambisonics_setup", "spaudiopy/decoder.py:LoudspeakerSetup.get_characteristic_order", "spaudiopy/decoder.py:vbap", "spaudiopy/decoder.py:vbip", "spaudiopy/decoder.py:allrap", "spaudiopy/decoder.py:allrap2", "spaudiopy/decoder.py:allrad", "spaudiopy/decoder.py:allrad2"]}
{"id": "C157", "title": "Filters in sequence, filters around the binaural rendering", "statement": "Two MonoSignal.conv calls one after the other act as one with the convolved filter, in either order; a unit impulse changes nothing. For sh2bin: filtering all Ambisonic channels, filtering all responses and filtering the two ear signals give the same; D zeros before the signals delay the ear signals by D samples, D zeros after them are appended; the ear signals of consecutive blocks, overlapped and added, are those of the whole signals; a matrix on the channels can be applied transposed to the responses instead; turning the sound field and the responses together changes nothing.", "quantifier": "all signals, filters, block lengths and delays; two or more channels and taps; all matrices and rotations", "why_tests_cant": "all signals, filters and lengths", "anchors": ["spaudiopy/sig.py:MonoSignal.conv", "spaudiopy/decoder.py:sh2bin", "spaudiopy/sph.py:sh_rotation_matrix"]}
{"id": "C158", "title": "Directions of pseudo_intensity: locality and plane waves", "statement": "Away from the borders the direction and radius pseudo_intensity returns for a sample depend only on the samples at most win_len//2 + smoothing_order//2 away; whatever precedes or follows a recording only shifts the results. For a plane wave encoded by src_to_b the radius is at least the windowed energy of the signal (equal without smoothing), and wherever it is at least 10e-15 the direction is that of the source.", "quantifier": "all recordings, window lengths, smoothing orders (odd or 0), numbers of jobs and schedules, without band pass; all source signals and directions", "why_tests_cant": "all signals and positions", "anchors": ["spaudiopy/parsa.py:pseudo_intensity", "spaudiopy/parsa.py:_intensity_sample", "spaudiopy/sph.py:src_to_b"]}
{"id": "C159", "title": "Directivity of the beams; where adaptive beams become fixed ones", "statement": "No beam of order N has a larger directivity (squared response towards a direction over its mean over the sphere) than (N+1)^2; sh_beamformer_from_pattern('hypercardioid' or 'max_di') has it in its steering direction with unit response, and only multiples of it do; 'cardioid' has 2N+1. sh_mvdr of a covariance that is a multiple of the identity (diffuse field, sensor noise), also with a source added in the steering direction, returns the hypercardioid; sh_lcmv with the single constraint of unit gain is sh_mvdr.", "quantifier": "all orders, directions, noise and source energies, and all beams of the order", "why_tests_cant": "all beams and directions; an optimum over a continuum", "anchors": ["spaudiopy/parsa.py:sh_beamformer_from_pattern", "spaudiopy/parsa.py:sh_mvdr", "spaudiopy/parsa.py:sh_lcmv", "spaudiopy/sph.py:hypercardioid_modal_weights", "spaudiopy/sph.py:cardioid_modal_weights"]}
{"id": "C160", "title": "Sources in noise: separation, MUSIC and extraction", "statement": "For the covariance of K sources (linearly independent steering vectors, positive definite source covariance) in noise of equal energy in all channels, separate_cov(S, K) returns exactly the covariance of the sources and that of the noise, and so does separate_cov(S) if the sources are strong enough for its threshold; with at most N sources from different directions sh_music attains its maximum exactly at their directions; with at most N+1 sources sh_lcmv constrained in all their directions, applied by sh_beamform to the encoded sources, returns their sum with the given gains.", "quantifier": "all orders, numbers and directions of sources, source covariances, noise levels, gains, signals and search grids; every eigenvalue decomposition numpy may return", "why_tests_cant": "all scenes and grids; the eigenvectors are not unique", "anchors": ["spaudiopy/parsa.py:separate_cov", "spaudiopy/parsa.py:estimate_num_sources", "spaudiopy/parsa.py:sh_music", "spaudiopy/parsa.py:sh_lcmv", "spaudiopy/parsa.py:sh_beamform"]}
{"id": "C161", "title": "Mode matching is the least squares solution, and plays a source at a loudspeaker from it alone", "statement": "decoder.mad returns, for every loudspeaker layout and order, those loudspeaker signals whose encoding at the loudspeaker directions is closest to sqrt(L)/(N+1) times the sound field, at every sample, and of all equally close ones the signals of least energy, which are unique. With at most N+1 loudspeakers in different directions, or more whose steering vectors are linearly independent, a source encoded in the direction of a loudspeaker is played by that loudspeaker alone, with gain sqrt(L)/(N+1).", "quantifier": "all loudspeaker layouts, orders, inputs and samples, and all competing loudspeaker signals", "why_tests_cant": "an optimum over all loudspeaker signals; all layouts", "anchors": ["spaudiopy/decoder.py:mad", "spaudiopy/sph.py:src_to_sh", "spaudiopy/sph.py:sh_matrix"]}
{"id": "C162", "title": "EPAD is the energy preserving decoder closest to sampling decoding", "statement": "With at least (N+1)^2 loudspeakers decoder.epad is, of all decoders that multiply the energy of every sound field by the same 4 pi/(N+1)^2, the one closest to decoder.sad in the sum of squared differences over loudspeakers and channels; with at most (N+1)^2 loudspeakers it is the closest of those that turn uncorrelated channels of equal energy into uncorrelated loudspeaker signals of equal energy. If the SH matrix of the loudspeakers has full rank (always for up to N+1 loudspeakers in different directions) it is the only one, so that the result does not depend on which singular value decomposition is used.", "quantifier": "all layouts, orders, and all competing decoders; every singular value decomposition", "why_tests_cant": "an optimum over all energy preserving decoders", "anchors": ["spaudiopy/decoder.py:epad", "spaudiopy/decoder.py:sad"]}
{"id": "C163", "title": "Decoded scenes keep pressure, velocity and all moments up to the order", "statement": "For any scene of sources encoded by src_to_sh and decoded by mad on loudspeakers whose SH matrix has full column rank, or by sad or epad (which agree there) on loudspeakers forming a design of strength 2N, every polynomial of degree at most N in the direction, weighted with the signals, adds up over the loudspeakers to sqrt(L)/(N+1) times what it adds up to over the sources, at every sample. In particular the loudspeaker signals of one source add up to sqrt(L)/(N+1) times its signal and their velocity vector is exactly the direction of the source, of length one, for every direction.", "quantifier": "all layouts of full rank and designs, orders, numbers of sources, signals, directions and polynomials", "why_tests_cant": "all scenes, layouts and polynomials", "anchors": ["spaudiopy/decoder.py:mad", "spaudiopy/decoder.py:sad", "spaudiopy/decoder.py:epad", "spaudiopy/sph.py:src_to_sh"]}
{"id": "C164", "title": "Refining the triangulation step by step, and what it does to panning", "statement": "Calling pop_triangles repeatedly leaves exactly the triangles that meet the limits of every call, in their original order: the order of the calls does not matter, and giving the four limits in one call is the same as giving them in four. For a setup that has not panned yet, vbap afterwards plays a source whose triangle was kept with the very gains it had before, plays a source that lies in several triangles by the first kept one, and gives a source that lies in removed triangles only no gain at all.", "quantifier": "all layouts, sequences of calls, limits, blacklists, norms and source directions", "why_tests_cant": "all sequences of calls and all layouts", "anchors": ["spaudiopy/decoder.py:LoudspeakerSetup.pop_triangles", "spaudiopy/decoder.py:vbap"]}
{"id": "C165", "title": "Headroom: how loud outputs can become", "statement": "For any scene of sources encoded by src_to_sh and decoded by epad on at least (N+1)**2 loudspeakers, at every sample no loudspeaker signal, nor the root of their total energy, exceeds the sum of the magnitudes of the source signals; with sad no loudspeaker exceeds (N+1)/sqrt(L) times that sum, and sources in the direction of a loudspeaker are played by it with exactly that gain. Beams of the built-in patterns (order up to 1224), and of any weights without negative ones and with unit response in the steering direction, never exceed the sum of the magnitudes. MonoSignal.conv, in every mode, raises the peak at most by the sum of the magnitudes of the filter, and the ear signals of sh2bin are bounded by the sum over the channels of such products. No vbap gain exceeds the distance compensation of its loudspeaker.", "quantifier": "all layouts, orders, numbers of sources, signals, directions, filters and norms", "why_tests_cant": "all signals and layouts; peaks over all inputs", "anchors": ["spaudiopy/decoder.py:epad", "spaudiopy/decoder.py:sad", "spaudiopy/parsa.py:sh_beamform", "spaudiopy/parsa.py:sh_beamformer_from_pattern", "spaudiopy/sig.py:MonoSignal.conv", "spaudiopy/decoder.py:sh2bin", "spaudiopy/decoder.py:vbap"]}
{"id": "C166", "title": "What arrives at the listener from loudspeakers at different distances", "statement": "A source panned by vbap over the loudspeakers of a LoudspeakerSetup and attenuated on the way to the listener as binauralize does (1/r) arrives with the norm asked for and with its velocity vector in the direction of the source, whatever the distances of the loudspeakers; a source played by nearest_loudspeaker arrives from the loudspeaker at the least angle with exactly its own level.", "quantifier": "all layouts, listener positions, norms and source directions", "why_tests_cant": "all layouts and sources", "anchors": ["spaudiopy/decoder.py:vbap", "spaudiopy/decoder.py:_invert_triplets", "spaudiopy/decoder.py:nearest_loudspeaker", "spaudiopy/decoder.py:LoudspeakerSetup.binauralize"]}
{"id": "C167", "title": "VBIP points the energy vector at the source", "statement": "For a setup with any loudspeaker distances, none at the listener position, whose valid triangles have linearly independent positions: the gains of vbip with any norm for a source which lies in the cones of the triangles that take it (not merely within the tolerance of -10e-6) are non-negative; if no valid triangle takes it they are all zero; otherwise they have unit norm and r_E, with the unit vectors from the listener to the loudspeakers, returns exactly a positive multiple of the source direction, with a magnitude of at most one.", "quantifier": "all layouts, listener positions, distances, sources and norms", "why_tests_cant": "all layouts and directions; a test sees a handful of sources on one layout, mostly with loudspeakers on a sphere", "anchors": ["spaudiopy/decoder.py:vbip", "spaudiopy/decoder.py:vbap", "spaudiopy/sph.py:r_E", "spaudiopy/decoder.py:LoudspeakerSetup.__init__"]}
{"id": "C168", "title": "Histories: panning, refining and Ambisonic rendering on one setup do not disturb each other", "statement": "On one LoudspeakerSetup, in any sequence of pop_triangles, ambisonics_setup, vbap, vbip, allrap, allrap2, allrad and allrad2 calls, whether they return or raise: positions, listener, distances, faces, centroids, areas and normals never change, valid faces are only removed, and only ambisonics_setup changes the characteristic order. On a prepared setup the results of allrap, allrap2, allrad, allrad2 and of vbap and vbip with retain_outside do not depend on calls made since (also not on pop_triangles), and these calls do not change what vbap and vbip without retain_outside, pop_triangles and ambisonics_setup do. With update_hull=False or given imaginary loudspeakers only the last completed ambisonics_setup counts: results are those of a new setup on which only that call was made, so removed triangles come back for Ambisonic rendering, if the order is given with the call or with ambisonics_setup. An ambisonics_setup that raises because of N_kernel=None keeps both hulls but replaces the order, after which allrad without N_sph rejects sound fields it accepted before.", "quantifier": "all layouts, all sequences of calls with all arguments (vbap and vbip with their default simplices)", "why_tests_cant": "histories of any length; a test runs a fixed script of calls", "anchors": ["spaudiopy/decoder.py:LoudspeakerSetup.pop_triangles", "spaudiopy/decoder.py:LoudspeakerSetup.ambisonics_setup", "spaudiopy/decoder.py:vbap", "spaudiopy/decoder.py:vbip", "spaudiopy/decoder.py:allrap", "spaudiopy/decoder.py:allrap2", "spaudiopy/decoder.py:allrad", "spaudiopy/decoder.py:allrad2"]}
{"id": "C169", "title": "Turning the listener's head in binauralize", "statement": "LoudspeakerSetup.binauralize with an orientation offset (azimuth, zenith) renders the loudspeaker signals as they are heard by a listener whose head has been turned and tilted by these angles: the result is that of the same loudspeakers in the coordinates of the turned head, successive turns add up and whole turns change nothing.", "quantifier": "all layouts, loudspeaker signals, HRIR sets and offsets", "why_tests_cant": "all offsets and layouts", "anchors": ["spaudiopy/decoder.py:LoudspeakerSetup.binauralize", "spaudiopy/sig.py:HRIRs.nearest_hrirs", "spaudiopy/utils.py:cart2sph"]}
{"id": "C170", "title": "Weights per order, and only these, can be exchanged with rotations", "statement": "Multiplying the channels of an Ambisonic signal with repeat_per_order(w) (max-rE weights, modal patterns), n3d_to_sn3d and sn3d_to_n3d give the same before and after rotate_sh; conversely, a linear processing of the channels that gives the same before and after every rotate_sh is a multiplication with repeat_per_order of some weights.", "quantifier": "every order N >= 1, all signals, weights, rotations and processing matrices", "why_tests_cant": "all rotations and all matrices", "anchors": ["spaudiopy/sph.py:rotate_sh", "spaudiopy/sph.py:sh_rotation_matrix", "spaudiopy/sph.py:repeat_per_order", "spaudiopy/sph.py:n3d_to_sn3d", "spaudiopy/sph.py:sn3d_to_n3d"]}
{"id": "C171", "title": "VBAP is the sharpest panning in amplitude", "statement": "Of all gains that are not negative, on any number of the loudspeakers, and that render the direction of the source, those of vbap (before distance compensation) need the least sum of amplitudes, i.e. have the longest velocity vector; if no further loudspeaker lies in the plane of a face, every panning with a velocity vector of that length is a multiple of them. On a new setup around the listener this holds for every source.", "quantifier": "every layout whose hull has the listener inside, every selection of valid faces, source, norm order >= 1 and competing gains; Qhull returning proper triangles that cover the boundary of the hull", "why_tests_cant": "all competing gains", "anchors": ["spaudiopy/decoder.py:vbap", "spaudiopy/decoder.py:LoudspeakerSetup.__init__"]}
{"id": "C172", "title": "VBIP is the sharpest panning in energy", "statement": "With loudspeakers at equal distances around the listener, vbip gains have the longest energy vector (as reported by the energy-vector analysis) of all gains, of either sign and on any of the loudspeakers, whose energy vector points at the source; if no further loudspeaker lies in the plane of a face, all gains reaching that length distribute the energy in the same way.", "quantifier": "every layout whose hull has the listener inside with equal distances, every source that is not within the tolerance outside of a face that takes it, norm order p > 0 and competing gains; Qhull returning proper triangles that cover the boundary of the hull", "why_tests_cant": "all competing gains", "anchors": ["spaudiopy/decoder.py:vbip", "spaudiopy/decoder.py:LoudspeakerSetup.__init__", "spaudiopy/decoder.py:vbap", "spaudiopy/sph.py:r_E"]}
{"id": "C173", "title": "max_rE_weights against all other weights", "statement": "Up to order 1224, max_rE_weights(N) has the longest energy vector of all order weights with the same part of the energy in the highest order (so the approximate angle in the code only moves that part); any other weights exceed it by at most (N+1)/(2N+1) P_(N+1)/P_N times the difference of these parts, and weights with the same part and length are a multiple of max_rE_weights up to signs.", "quantifier": "every order up to 1224, design of strength 2N+1, source direction and competing weights", "why_tests_cant": "all competing weights and orders", "anchors": ["spaudiopy/sph.py:max_rE_weights", "spaudiopy/sph.py:bandlimited_dirac", "spaudiopy/sph.py:r_E"]}
{"id": "C174", "title": "How sharp any decoded scene can be", "statement": "On loudspeakers forming a design of strength 2N+1, whatever sound field (any sources, diffuse, filtered) is decoded by sad, mad or epad at order N, r_E of the loudspeaker signals at any sample is never longer than the largest zero of the Legendre polynomial P_(N+1), which is below one; a single source with its orders weighted by P_n of that zero reaches exactly that length, towards the source.", "quantifier": "every order, design, sound field of at least (N+1)**2 channels, sample and source direction", "why_tests_cant": "all sound fields, not only single sources", "anchors": ["spaudiopy/decoder.py:sad", "spaudiopy/decoder.py:mad", "spaudiopy/decoder.py:epad", "spaudiopy/sph.py:r_E"]}
{"id": "C175", "title": "All sectors together are the field", "statement": "The pressure and x, y, z velocity outputs of sh_sector_beamformer for the analysis beams of design_sph_filterbank, summed over the sectors with the first row of the synthesis matrix, are, for every sound field one order above the beams, exactly its omnidirectional channel and its first-order channels over sqrt(3) in ACN order; with mode='energy' the products of pressure and velocity of the sectors add up, for a plane wave of any amplitude, to its energy times its direction.", "quantifier": "every sector order up to nine, design of sectors, order weights, sound field and plane wave", "why_tests_cant": "arbitrary sound fields through both functions together", "anchors": ["spaudiopy/parsa.py:sh_sector_beamformer", "spaudiopy/sph.py:design_sph_filterbank"]}
{"id": "C176", "title": "rotation_rodrigues reaches every rotation, rotation_vecvec is the smallest", "statement": "Every orthogonal matrix of determinant one is rotation_rodrigues(k, theta) for some axis and some theta in (pi, 3 pi], so despite the threshold that ignores small and negative angles no rotation is out of reach, not even small ones; a rotation turning by more than 10e-10 is also obtained with theta equal to the angle by which it turns, arccos((trace - 1)/2). Where rotation_vecvec(f, t) rotates at all, it turns by the angle between f and t; every other rotation taking the direction of f to that of t turns further.", "quantifier": "every rotation, and every pair of vectors outside the thresholds of rotation_vecvec", "why_tests_cant": "all rotations compete with the returned one", "anchors": ["spaudiopy/utils.py:rotation_rodrigues", "spaudiopy/utils.py:rotation_vecvec"]}
{"id": "C177", "title": "Which angles are the same rotation", "statement": "Unless the pitch is +-90 degrees, two sets of angles give the same rotation_euler, and the same sh_rotation_matrix, exactly if they agree up to full turns as they are or after the flip (yaw + pi, pi - pitch, roll + pi). At a pitch of +90 (-90) degrees only yaw + roll (yaw - roll) matters. Every rotation has angles with yaw and roll in (-pi, pi] and pitch in [-pi/2, pi/2], and only one such triple unless the pitch is +-90 degrees.", "quantifier": "all angles, all rotations, every order N >= 1", "why_tests_cant": "all pairs of triples of angles", "anchors": ["spaudiopy/utils.py:rotation_euler", "spaudiopy/sph.py:sh_rotation_matrix"]}
{"id": "C178", "title": "Filter banks and sectors turn and mirror with the field", "statement": "design_sph_filterbank called with turned (or mirrored) sector directions analyses the sound field turned with rotate_sh (or mirrored) into the same sector signals, and what its synthesis matrix makes of any sector signals is the turned (mirrored) synthesis, in each of the modes 'perfect', 'energy' and 'pinv'. The sh_sector_beamformer of beams turned with rotate_sh gives for the turned field the same pressure outputs, and the velocity outputs turned by rotation_euler.", "quantifier": "every order N >= 1 (sector beamformers up to nine), rotation, mirror plane, set of sectors, order weights, beams and sound field", "why_tests_cant": "all rotations and sound fields", "anchors": ["spaudiopy/sph.py:design_sph_filterbank", "spaudiopy/parsa.py:sh_sector_beamformer", "spaudiopy/sph.py:rotate_sh", "spaudiopy/utils.py:rotation_euler"]}
{"id": "C179", "title": "sh_mult is a product", "statement": "sh_mult(a, b) == sh_mult(b, a), also in which calls raise; sh_mult(sh_mult(a, b), c) == sh_mult(a, sh_mult(b, c)); the product is linear in each factor; multiplying with the coefficients sqrt(4 pi), 0, 0, ... of the function one, of any order, only appends zeros; sqrt(4 pi) times the first coefficient of the product is the sum of products of the coefficients, so that of a square is the energy; and the product is zero only if one of the factors is zero.", "quantifier": "all coefficients of all orders whose sum is between 1 and 10", "why_tests_cant": "all pairs and triples of coefficient vectors", "anchors": ["spaudiopy/sph.py:sh_mult"]}
{"id": "C180", "title": "sh_mult with complex spherical harmonics", "statement": "sh_mult(a, b, 'complex') returns the (N1+N2+1)**2 coefficients whose expansion in complex spherical harmonics is the pointwise product of the expansions of a and b, in every direction; although returned as complex numbers, they are real. For N1 + N2 = 0 and for N1 + N2 > 10 it raises ValueError.", "quantifier": "all real coefficients of all orders", "why_tests_cant": "all pairs of coefficient vectors", "anchors": ["spaudiopy/sph.py:sh_mult", "spaudiopy/sph.py:sht", "spaudiopy/sph.py:inverse_sht"]}
{"id": "C181", "title": "Products of beams", "statement": "sh_mult of the coefficients repeat_per_order(cardioid_modal_weights(N)) * sh_matrix(N, azi, zen) of two cardioids of orders N1 and N2 steered to the same direction gives those of the cardioid of order N1 + N2. For any weights per order the product of two beams steered to the same direction is again a beam steered there, with weights that do not depend on the direction; its gain in that direction is the product of the gains, so that beams of unit amplitude have products of unit amplitude.", "quantifier": "all orders whose sum is between 1 and 10, all weights, all directions", "why_tests_cant": "all weights and directions", "anchors": ["spaudiopy/sph.py:sh_mult", "spaudiopy/sph.py:cardioid_modal_weights", "spaudiopy/sph.py:repeat_per_order"]}
{"id": "C182", "title": "Lagrange delays as filters", "statement": "lagrange_delay(N, N - d) is lagrange_delay(N, d) reversed; at d = N/2 its phase is linear at every frequency. A signal sampled from a polynomial of degree at most N leaves the filter delayed by exactly d samples, and the moments about d up to order N vanish; for a polynomial of degree N + 1 the output is wrong by its leading coefficient times d (d-1) ... (d-N), so it is right only for the whole delays 0 to N. Two such filters in a row delay polynomials up to the smaller order by the sum of the delays.", "quantifier": "all orders, all delays (inside or outside the taps), all polynomials, all frequencies", "why_tests_cant": "all orders, delays and polynomials", "anchors": ["spaudiopy/process.py:lagrange_delay"]}
{"id": "C183", "title": "Shape and limits of the Butterworth weights", "statement": "butterworth_modal_weights(N, k, n_c) are positive and fall strictly with the order for k > 0, with or without UNITAMP; relative to order zero they are 1/sqrt(2) exactly at the cut-on order n_c, larger below and smaller above it, where they follow the slope (n_c/n)^k to within 3 dB from below. k = 0 gives hypercardioid_modal_weights(N). For growing k and n_c between M and M + 1 (M <= N) they tend to hypercardioid_modal_weights(M), for growing n_c to hypercardioid_modal_weights(N).", "quantifier": "all orders N, all real k >= 0, all real n_c > 0; limits in k and n_c", "why_tests_cant": "monotonicity for all real parameters, limits", "anchors": ["spaudiopy/sph.py:butterworth_modal_weights", "spaudiopy/sph.py:hypercardioid_modal_weights"]}
{"id": "C184", "title": "The clipping curve has no corner", "statement": "gain_clipping(g, t) for t > 0 has a slope at every gain, one up to and at the threshold and falling above it; the curve is concave and never enlarges the difference of two gains. Scaling gains and threshold by the same factor scales the result, and a larger threshold never gives a smaller gain.", "quantifier": "all gains, all positive thresholds (all non-zero factors)", "why_tests_cant": "slope, concavity and monotonicity in the threshold for all real values", "anchors": ["spaudiopy/process.py:gain_clipping"]}
