# Formal model of spaudiopy in Lean 4

The source in `/repo/spaudiopy` is modelled function by function in `lean/Verif/Model/*`.
Specifications live in `lean/Verif/Spec/*`, helper lemmas in `lean/Verif/Proofs/*`, the property theorems
(with one satisfiability example each) in `lean/Verif/Props/*`. `MANIFEST.json` maps every property of
`properties.jsonl` to the theorems that settle it.

## 1. How the code is modelled

* **Numbers.** Floating point numbers are modelled by the reals (`ℝ`), complex ones by `ℂ`. Rounding, overflow,
  `nan`, `inf` are not modelled, except where the code branches on them (`r_E`: the `0/0 = nan` branch is modelled
  as an explicit test). Thresholds such as `10e-6` are kept literally.
* **Exceptions** are values: `Py α = Except PyErr α`, one constructor per exception class raised in the code.
* **Arrays.** One-dimensional arrays are `List`s where the length is data (signals, channels, faces) and functions
  `Fin n → ℝ` / Mathlib matrices where only linear algebra happens. Shape errors that the code can run into are
  explicit (`asarray_1d`, `squeeze`, broadcasting of `n3d_to_sn3d`, `sh_rotation_matrix` at order 0, …).
* **Python integer conversion** `int(x)` truncates towards zero (`pyInt`), slices follow Python's clamping and negative
  index rules (`pySlice`), `%` is the floored modulus.
* **Objects and aliasing.** Where the property is about histories (signals, loudspeaker setups) the object is a record
  and every method a state transition; where it is about aliasing (constructor of `LoudspeakerSetup`, `deepcopy`) there is an
  explicit heap of buffers with views.
* **Concurrency.** `multiprocessing` workers are sets of step lists of loads/stores on a shared array; schedules are arbitrary
  interleavings. Locks are modelled by an ownership cell, and the shared/unshared lock (fork/spawn) is a parameter.
* **External routines** (`numpy.linalg.inv/pinv/lstsq/svd/eigh`, `leggauss`, `ConvexHull`, `sph_harm`, `resampy`,
  `fftconvolve`, `soundfile`, `loadmat`) are parameters with the specification stated as hypotheses, or defined by their
  textbook meaning (`sph_harm`: orthonormal complex harmonics with Condon–Shortley phase from Legendre polynomials;
  convolution: the finite sum).

## 2. Trusted base

* Lean 4.33 kernel, Mathlib; axioms `propext`, `Classical.choice`, `Quot.sound` only (checked by `#print axioms`
  in `lean/Verif/Audit.lean`).
* The transcription of Python to Lean (each definition cites file and lines), and the real-number abstraction.
* The specifications of external routines named above.

## 3. Plan per property

| id | modelled | proof idea |
|----|----------|-----------|
| C01 | `cart2sph`, `sph2cart`, `cart2dir`, `dir2cart`, `vec2dir` over ℝ with `arctan2 y x = arg (x+iy)` | polar form of complex numbers, `cos∘arccos`, `sin∘arccos = sqrt(1-x²)` |
| C02 | `deg2rad`, `rad2deg` with floored mod | floor lemmas |
| C03 | `haversine`, `angle_between`, `dir2cart` | half-angle identities; Mathlib's angle triangle inequality |
| C04–C06 | `rotation_euler`, `rotation_rodrigues`, `rotation_vecvec` as 3×3 matrices | matrix algebra; cross product identities; negation for negative angles |
| C07 | `db`, `from_db` | logarithm laws |
| C08 | `interleave_channels` on lists of rows | list induction |
| C09 | `asarray_1d` on (shape, data) | list induction on shapes |
| C10, C11 | ACN double loop, `repeat_per_order`, `int(sqrt(K)-1)` | induction on N, `Nat.sqrt` |
| C12–C15 | the conversions | list/matrix algebra |
| C16, C17 | modal weights, `bandlimited_dirac`, Legendre via Bonnet's recurrence | telescoping; expansion of ((1+x)/2)^N by the Legendre ODE / recurrences |
| C18 | real SH | from C19/C20 by rotating one direction to the pole |
| C19, C20 | full Ivanic–Ruedenberg recursion with its `u,v,w,P` cases | solid harmonics as divided-power sums, gradient relations, induction on order |
| C21 | error branches of `sh_rotation_matrix`, `rotate_sh` | negation at order 0 |
| C22 | `sht`, `inverse_sht`, `gauss`, `equal_angle` | discrete orthogonality: trigonometric sums and exactness of the polar rule |
| C23 | `sht_lstsq` with the least-squares spec | normal equations |
| C24, C25 | filter bank, `sh_mult` on design grids | design identity Σ Y Yᵀ = Q/(4π) I, addition theorem |
| C26 | `r_E` | Cauchy–Schwarz / convexity |
| C27, C28 | grids, loaders | trigonometric sums; well-founded recursion on the degree |
| C29–C34 | `vbap`, worker, `vbip`, inverse cache, `characteristic_ambisonic_order` | linear algebra of 3×3 systems; interleaving induction; negation for the stale cache |
| C35–C38 | triangulation helpers | list filters, geometry |
| C39 | constructor on a heap of buffers with views | negation with witness; partial: returned setup is right |
| C40 | setup state machine with failure points | case analysis over histories |
| C41–C46 | decoders | matrix algebra, addition theorem, list sums |
| C47–C52 | signal classes as state machines | invariants over histories; negations with witnesses |
| C53–C61 | process | Lagrange interpolation, telescoping trigonometric gains, analysis |
| C62, C63 | worker/lock semantics | invariant over all interleavings, negation without shared lock |
| C64–C73 | parsa | spectral theorem as hypothesis, quadratic optimisation, COLA |
| C74, C75, C82 | `load_audio`, `save_audio` with soundfile as (rate, frames, channels) | case analysis, list induction, interleaving |
| C76, C83 | `load_layout`, `save_layout` over JSON entries; Qhull, `lstsq`, n-designs as parameters | list filters; Lipschitz bounds for the rounding |
| C77 | BRIR writers, serial and pool | relation over all pool results; list induction |
| C78 | `load_hrirs` with dummy, default and file sources | existence and sign properties of Gauss–Legendre nodes |
| C79 | integral over the sphere | Legendre ODE / orthogonality, iterated integrals |
| C80 | grids as quadrature rules | exactness of the polar rule times trigonometric sums |
| C81 | frequency table of the filter bank | list induction, monotonicity |
| C84 | `calculate_grid_weights` with the pseudo-inverse specification | first row of a left inverse; projection argument for minimality |
| C85, C86 | `ilds_from_hrirs`, `itds_from_hrirs`; band-pass and resampler as parameters | sums of squares; Cauchy–Schwarz for the correlation peak |
| C87 | `sh_sector_beamformer` | product theorem C25 per row |
| C89 | `magls_bin` with `pinv` as parameter; `rfft`/`irfft` by their sums | orthogonality of roots of unity; normal equations; induction over frequencies |
| C90 | `hrirs_ctf` over the existing smoothing and grid weight models, `signal.minimum_phase` as a parameter, taps that are all `nan` as `none` | linearity of smoothing, transform pairs of C89 |
| C91 | SOFA variables as arrays with shapes, `np.squeeze` of all, real and complex pseudo-inverse as parameters | index arithmetic; Penrose conditions |
| C92 | `SDM.mat` variables as optional arrays, `nan` as `none` | case analysis |
| C93 | `sht`, `inverse_sht`, `sht_lstsq` over ℂ | expansion of `Y_n^m` in the real harmonics; sampled orthogonality and addition theorem of the real ones |
| C94 | `get_default_hrirs`: source file, three written files as MAT contents, pools with completion orders | inverse DFT, C93 (transform), C61 (pool), C78 (loader) composed |
| C95 | `resample_spectrum`: stacks of spectra, `np.squeeze` of the result | DFT inversion |
| C96 | `subband_levels` for complex rows, default axis | homogeneity of the root mean square; energy from C54 |
| C97 | gains of `sdm_post_equalization2` (same model as C72) | bounds by clipping, smoothing is a convex combination; linearity of the DFT for panned signals |
| C98 | `check_listener_inside` and the default `valid_simplices` of a new setup | Thales: the sign of the dot product decides membership in the ball over listener and mean; counterexamples on a long octahedron |
| C99 | `calculate_vertex_normals` on the areas and normals of `calculate_face_areas`, `calculate_face_normals` | every summand points outwards; sum of positive numbers |
| C100 | `render_binaural_loudspeaker_sdm`, post equalisation as a function parameter | composition of the two parts of C46 |
| C101 | `from_file` and `save` of the signal classes, `soundfile` as in C75 | layout lemmas of C75 and C82 |
| C102 | `allrap2` (same model as C42), energy of the gains | sampled addition theorem on the kernel design; the normalisation constant made explicit |
| C103 | `find_imaginary_loudspeaker`: rim edges, rim vertices, weighted normals | degrees of the rim graph; sign argument for closed surfaces; counterexamples on octahedron and corner tetrahedron |
| C104 | `vbap(retain_outside=True)`, `np.delete` of the imaginary column | C29 on the Ambisonic hull |
| C105 | `scipy.signal.convolve` by its definition, all modes | index arithmetic on the full convolution |
| C106 | `b_to_stereo` | trigonometry |
| C107-C109 | `stack`, `rms`, `test_diff` | case analysis, list sums |
| C110 | `bandlimited_dirac`, `r_E`, `max_rE_weights` on loudspeakers of a design | zonal quadrature; Bonnet recurrence; completing squares with the largest root of `P_(N+1)`, whose existence is proved by interlacing |
| C111 | `max_rE_weights` | partial sums of the series of `P_n` enclose it in turn; bounds of pi and sine; monotonicity of the series of J0 |
| C112 | `src_to_sh`, `sad`, `mad`, `epad`, `rotate_sh`, `r_E` | decoders on designs reduce to sampled panning functions, then C110 |
| C113 | `project_on_sphere` | C01; Cauchy-Schwarz |
| C114 | `check_cond_sht`, `np.linalg.cond` by its specification (`IsCond`, shown to be satisfiable and unique) | Gram matrix on designs; rank; orthogonal rotation matrices; spectral bounds of the quadratic form and normal equations |
| C115 | `Model/SigBasics.lean`: constructors, length, indexing, `signal`, `resample`, `sh_to_b` | Python indexing rule; `mapM` over the channels |
| C116 | `Model/PlotSpectra.lean`: `spectrum` with the DFT by its sum | geometric sums of roots of unity |
| C117 | `freq_resp` incl. the caller's labels; the drawn curves, limits and legend | case analysis; maximum of a list |
| C118 | `transfer_function` with `np.clip` on complex numbers (lexicographic) | complex argument; unwrapping of small steps |
| C119 | `Model/PlotMaps.lean`: `sh_rms_map`, block loop by recursion, default argument as state | block sums; addition theorem and Cauchy-Schwarz for the beam pattern |
| C120 | `doa`, drawn points and the caller's array | floor of the quotient; lists |
| C121 | `spherical_function_map`, likewise | periodicity |
| C122 | `hrirs_ild_itd` from the results of C85 and C86 | truncated quotient of `np.fmod`; maximum of a list |
| C123 | `Model/PlotShapes.lean`: `decoder_performance`, names and the four measures; renderers NLS and SAD from `Model/Decoder.lean` | C26, C44 and C112 |
| C124 | `hull`: drawn faces with their colours, labels, limit | lists; maximum of a list |
| C125 | `polar`: both curves and limits | case analysis |
| C126 | `sh_bar`: ticks and cells | division with remainder |
| C127 | `sh_coeffs`, `_overlay` (type carried between entries), `_subplot` | complex polar form; the harmonic (1, -1) |
| C128 | `allrad2` of `Model/Decoder.lean` | matrix algebra and the addition theorem C18; C102 for the example |
| C129 | `ambisonics_setup` of `Model/Decoder.lean` | case analysis over the calls made |
| C130 | `zeropole`: roots and limits, `Model/PlotMisc.lean` | polynomials over ℂ split |
| C131 | `spherical_function`, `set_aspect_equal3d`, likewise | folds with minimum and maximum |
| C132 | `hull_normals`, likewise | C38 and C99 |
| C133 | `compare_ambi`, likewise | case analysis |
| C134 | `inverse_sht`: truncation, errors, given `Y_nm`, `Model/ShGiven.lean` | case analysis on the order |
| C135 | `plot.decoder_performance`: lattice, gains of all ten renderers, measures, colour scales, markers, `Model/PlotPerformance.lean` | lattice by ceilings; columns of matrix products; C42, C112, C123 per vertex |
| C136 | bands of `frac_octave_filterbank`, `Model/Process.lean` | every row is written by one rise and one fall; the transitions ascend (C54) |
| C137 | `angleBetween`, `Model/Utils.lean` | identification with Mathlib's angle in `EuclideanSpace ℝ (Fin 3)`; law of cosines and angle sum follow |
| C138 | `Hull`, `vbap`, `vbip`, `sad`, `mad`, `epad`, `rotateSh`, `Model/Decoder.lean`, `Model/SphRot.lean` | equivariance of each step; least squares solution, pseudoinverse and polar factor are unique, so the external routines commute with the rotation. `allrap`/`allrad` are not covered: their virtual loudspeakers stay where they are |
| C139 | `mkHull`, `popTriangles`, `vbapHull`, `nearestLoudspeaker`, `sad`, `mad`, `epad`, `Model/Decoder.lean` | triangles compared as sets of loudspeakers; gains on one triangle, pseudoinverse and polar factor are unique |
| C140 | `srcToSh`, `sht`, `shtLstsq`, `inverseSht`, `rotateSh`, `shToB`, `scalePerOrder`, `sad`, `mad`, `epad`, `binauralize` | matrix algebra; the least squares solution of least norm by its orthogonality conditions; the gate of `binauralize` bounded by the absolute sum of a response |
| C141 | `mkHull`, `vbapHull`, `vbap`, `vbip`, `nearestLoudspeaker`, `popTriangles`, `getCharacteristicOrder`, `sad`, `mad`, `epad` | homogeneity of the geometry; the inverse bases scale by 1/c, the p-norm removes it |
| C142 | `srcToSh`, `sht`, `shtLstsq`, `inverseSht`, `rotateSh`, `shToB`, `scalePerOrder`, `sad`, `mad`, `epad`, `binauralize` | columns of a matrix product; uniqueness of the least squares solution of least norm; convolution commutes with delays, and C140 for overlap and add |
| C143 | `realSH`, `srcToSh`, `sad`, `mad`, `epad`, `vbap`, `vbip`, `nearestLoudspeaker`, `mkHull`, `popTriangles`, `binauralize` | parity of Legendre derivatives and of sine and cosine; a diagonal orthogonal matrix in the lemmas of C138; symmetric layouts by renumbering (C139) |
| C144 | `srcToSh`, `sht`, `inverseSht`, `rotateSh`, `n3dToSn3d`, `sn3dToN3d`, `sad`, `mad`, `epad`, `allrad`, `allrad2`, `shtLstsq` | entries depend on their own channel number only; block diagonal rotation; the minimum norm solution for one sample |
| C145 | `shBeamform`, `shBeamformerFromPattern`, `shMvdr`, `shLcmv`, `shMusic`, `separateCov`, `estimateNumSources`, `PseudoIntensity`, `rotateSh`, `shToB`, `rE` | turned channels are an orthogonal transform that commutes with encoding; functions of the eigenvalues do not depend on the eigenvectors; the intensity integral is linear in X, Y, Z |
| C146 | `shMvdr`, `shLcmv`, `shMusic`, `separateCov`, `estimateNumSources`, `PseudoIntensity`, `rE`, `energyDecay`, `matchLoudness`, `itdsFromHrirs` | homogeneity of every step; scaled eigenvalues are eigenvalues of the scaled matrix |
| C147 | `Mono.trim`, `Multi.trim`, `trimAudio`, `Mono.resample`, `Multi.resample`, `Centers`, `filterbank`, `ffTable`, `subbandLevels`, `ildsFromHrirs`, `itdsFromHrirs`, `maglsBin`, `pulsedNoise`, `colorationCompensation`, `spectrum`, `doa` | every rate and frequency only occurs in ratios and products with times |
| C148 | `vbap`, `vbip`, `VbapOutcome`, `allrap`, `allrap2`, `shMat`, `inverseSht`, `shBeamformerFromPattern`, `shMusic`, `shMvdr`, `HRIRs.nearestIdx` | the loop body reads one source and the caches, which are the same after every call; `mapM` over an append; submatrices |
| C149 | `RenderBsdm`, `renderStereoSdm`, `HRIRs.nearestHrirs`, `HRIRs.applyCtfEq`, `convolve` | C62 (sum over samples of delayed responses) as an identity of power series; the rest is algebra there |
| C150 | `sht`, `shtLstsq`, `checkCondSht`, `calculateGridWeights`, `hrirsCtf`, `maglsBin`, `ildsFromHrirs`, `itdsFromHrirs`, `HRIRs.nearestHrirs`, `RenderBsdm`, `binauralize` | sums over the points; uniqueness of the pseudo-inverse and of least squares solutions of least norm; `argmax` without ties |
| C151 | `shRotationMatrix`, `rotateSh`, `shMult`, `rotationEuler` | coefficients are determined by values on the equal angle grid (C22), so C19 and C25 lift identities of directions to identities of matrices; Euler angles of a rotation are constructed |
| C152 | `sht`, `inverseSht`, `shtLstsq`, `equalAngle`, `gauss` | Gram matrix with weights is the identity (C22); Fejér bound for the polar weights; Pythagoras |
| C153 | `vbapHull`, `tryFace`, `invertTriplets` | coordinates of the source are the same in every triangle with the corners that count; finitely many triangles, each with continuous gains; jump of the tolerance on the octahedron (C153_jump) |
| C154 | `mkHull`, `vbapHull`, `allrap2` | Qhull specified as covering the boundary of the convex hull with proper triangles on supporting planes (`IsConvexHull`); the ray of a source leaves the hull in one of them (gauge) |
| C155 | `faceNormal`, `popTriangles`, `checkNormals` | the cross product is parallel to the normal of the supporting plane, the mean of the loudspeakers decides the sign; from outside a segment to an inner point enters through a face seen from its outer side |
| C156 | `ambisonicsSetup`, `getCharacteristicOrder`, `vbap`, `vbip`, `allrap`, `allrap2`, `allrad`, `allrad2` | the mean spread lies in (0°, 180°], so the order formula gives at least one; an invariant on the setup (stored inverses are those of the valid faces) kept by every call |
| C157 | `Mono.conv`, `sh2bin` | signals as power series in the delay: the full convolution is the product, `sh2bin` a sum of products |
| C158 | `PseudoIntensity`, `srcToB` | windows and smoothing as finite sums over neighbours; for a plane wave all components are multiples of one energy |
| C159 | `Parsa`, `SphCore` | Parseval on the sphere (from C79), Cauchy–Schwarz with equality; MVDR through the uniqueness in C66 and C67 |
| C160 | `Parsa` | dimension count of the eigenspaces of sources plus noise; products of linear forms separate up to N directions (C79) |
| C161 | `Decoder`, `SphCore` | orthogonality of the residual and of the kernel from the four Penrose equations; independence of up to N+1 steering vectors from C160 |
| C162 | `Decoder`, `SphCore` | orthogonal Procrustes problem column by column in the singular basis; few loudspeakers by transposition |
| C163 | `Decoder`, `SphCore` | re-encoding (C43) and the span of the harmonics (C79); `epad` is `sad` on designs by the uniqueness of the polar factor |
| C164 | `Decoder` | the calls filter the faces by properties of the layout only (C35); the row of a source depends on the first face that takes it |
| C165 | `Decoder`, `SphCore`, `Parsa`, `Signals` | addition theorem and Cauchy-Schwarz; Legendre polynomials are bounded by one; positivity of the modal weights (C111) |
| C166 | `mkHull`, `vbapHull`, `nearestLoudspeaker`, `attenuated` | C29 and C44 with the distances a setup stores; a counterexample computed on an octahedron with one loudspeaker twice as far away |
| C167 | `Decoder`, `SphCore` | squared gains are proportional to the VBAP gains (C34), which add up to the source along the unit vectors (C166); uniqueness of coordinates makes them non-negative |
| C168 | `Decoder` | state machine over all calls; induction on the history with the Ambisonic hull up to its stored inverses as invariant |
| C169 | `binauralize`, `HRIRs.nearestHrirs`, `cart2sph` | the nearest response depends on the unit vector of the direction only; subtracting an azimuth rotates that vector, subtracting a zenith angle does so only in the front half of the median plane |
| C170 | `rotateSh`, `repeatPerOrder`, `scalePerOrder` | the rotation matrix is block diagonal; conversely the image of the pole under a commuting matrix is kept by all turns about the vertical axis, hence zonal (averaging over N+1 turns), and every direction is a rotated pole |
| C171 | `vbapHull`, `mkHull` | linear programming duality: the outer normal of the face bounds the sum of amplitudes of any competitor from below, with equality on the face only |
| C172 | `vbip`, `vbapHull`, `mkHull`, `rE` | C167 gives the direction, C34/C29 the face; then the duality of C171 on the energies |
| C173 | `maxREWeights`, `bandlimitedDirac`, `rE` | the loss of any weights against cos(theta) as an explicit sum of squares, by the recurrence of the Legendre polynomials |
| C174 | `sad`, `mad`, `epad`, `rE` | the square of the field times (zero - cosine) is integrated by a Gauss grid turned towards the energy vector, whose nodes all lie below the zero |
| C175 | `designFilterbank`, `sectorBeamformer` | summed beams agree with the first-order patterns in every direction, and expansions are unique |
| C176 | `rotationRodrigues`, `rotationVecvec` | axis from det(R-1)=0, conjugation to a roll, quadratic form of Rodrigues' formula |
| C177 | `rotationEuler`, `shRotationMatrix` | entries of the matrix; C151 |
| C178 | `designFilterbank`, `sectorBeamformer`, `rotateSh` | the rotation matrix is orthogonal and keeps the orders apart; uniqueness of the expansion and of the pseudo-inverse |
| C179 | `shMult` | C25 and uniqueness of the expansion; expansions are analytic along paths |
| C180 | `shMultC` | real and imaginary part are polynomials; C93; the mirror image is the conjugate |
| C181 | `shMult`, `cardioidWeights` | C17, C18, C25, uniqueness of the expansion; polynomials are sums of Legendre polynomials |
| C182 | `lagrangeDelay` | C53 and uniqueness; the nodal polynomial for the error |
| C183 | `butterworthWeights`, `hypercardioidWeights` | monotonicity of powers and roots; continuity of the quotient by the gain |
| C184 | `gainClipping` | derivatives from both sides of the threshold, mean value inequality, concavity through the origin |
| C88 | spherical Bessel functions by recurrence, mode strength, compensation gain | Wronskian by induction; monotone sums |

Properties that turn out false of the code are stated as negations with a witness together with a `_partial` theorem
that holds; section 4 lists them.

## 4. Disagreements between code and expectation

Each line names a theorem that proves the disagreement of the model, which mirrors the code line by line.

| id | what happens | theorem |
|----|--------------|---------|
| C05 | `rotation_rodrigues` with a negative angle is the identity, not the inverse rotation | `C05_negative_angle_not_inverse` |
| C12 | for 2 or 3 channels the SH conversions use order 0 and return the input unchanged instead of raising | `C12_no_square` |
| C21 | `sh_rotation_matrix(0, …)` and `rotate_sh` of one channel raise `ValueError` | `C21_order_zero_raises` |
| C32, C33 | inverses stored by `vbap` survive `pop_triangles`; later gains use wrong triangles | `C32_stale`, `C33_stale` |
| C39 | the constructor subtracts the listener position from the caller's arrays in place | `C39_modified`, `C39_shared` |
| C45 | `np.squeeze` breaks order 0 and one-tap filters | `C45_order_zero_fails`, `C45_one_tap_fails` |
| C48 | `MultiSignal.conv` with too few responses leaves the other channels unconvolved, so that lengths differ; `resample` of one channel breaks the object | `C48_conv_fails`, `C48_resample_mono_fails` |
| C49 | `AmbiBSignal` component attributes are snapshots | `C49_trim_fails`, `C49_ambeo_fails` |
| C52 | the HRIR constructor accepts different tap counts | `C52_constructor_fails`; a rejected `apply_ctf_eq` can then leave one ear equalised, `C52_equalise_half` |
| C54 | negative overlap leaves gaps in the filter bank | `C54_negative_overlap_fails` |
| C57 | integer input is truncated | `C57_integer_fails` |
| C58 | the energy decay curve does not begin at 0 dB | `C58_first_value_fails` |
| C60 | pause length, odd pink noise, missing fade | `C60_pause_fails`, `C60_pink_odd_fails`, `C60_no_fade_fails` |
| C61, C77 | `jobs_count <= 0` silently yields zeros | `C61_no_jobs`, `C77_no_jobs_fails` |
| C62 | without a shared lock updates are lost | `C62_own_locks_fail` |
| C63 | the last full window is skipped | `C63_last_fails` |
| C69 | zero sources select an empty subspace | `C69_zero_sources_fails` |
| C71 | assertion on the number of taps at 22050, 96000, 192000 Hz | `C71_rates_fail` |
| C72 | smoothed gains are returned but not applied | `C72_fails` |
| C73 | the check for the truncated tail looks at the wrong column | `C73_tail_fails`, `C73_tail2_fails` |
| C74 | the rate check of `save_audio` is dead code | `C74_ignored`, `C74_fails` |
| C76 | gains are shifted by preceding imaginary loudspeakers; integer gains make saving fail | `C76_gain_fails`, `C76_integer_gains_fail` |
| C78 | dummy HRIRs raise `IndexError` from 402 kHz on | `C78_high_rate_fails` |
| C81 | a lowest band edge below 1 Hz puts the centre outside the band | `C81_low_fails` |
| C83 | imaginary loudspeakers are not moved by the listener position | `C83_imaginary_fails` |
| C89 | `magls_bin` of an odd number of samples above 1024 returns one sample less; order 0 fails with the default arguments | `C89_fit`, `C89_errors` |
| C90 | Responses with fewer than five bins below 1 kHz (below 14 samples at 48 kHz) yield taps that are all `nan`; the neutral equaliser is not a unit impulse: it is off the centre of its window | `C90_errors`, `C90_flat` |
| C91 | A SOFA file with a single direction cannot be read (`np.squeeze` drops the dimension, `IndexError`) | `C91_errors` |
| C94 | The file for 44100 Hz is written without looking at the rate the source declares, so a source of another rate is mislabelled; the other two are resampled from the declared rate | `C94_source_rate` |
| C95 | `resample_spectrum` assumes an even number of samples: the spectrum of an odd-length signal changes even at unchanged rate | `C95_odd_fails` |
| C98 | a listener inside a long layout, off its centre, loses the faces on the near side; a listener outside may keep all faces | `C98_inside_fails`, `C98_outside_fails` |
| C102 | `allrap2` normalises with `2*(n+1)` instead of `2n+1` (line 891), so the energy of its gains is constant but below one | `C102_not_unit` |
| C103 | two separate holes are not refused (their sum of normals may even vanish, the imaginary loudspeaker is then at the origin); faces are weighted with the square of their area because `face_normals` are not normalised | `C103_two_rims_fails`, `C103_direction_fails` |
| C107 | `stack` only accepts equal shapes that are not square, not one common dimension | `C107_common_dimension_fails` |
| C111 | the last weight of `max_rE_weights(N)` is negative for every N > 1224 | `C111_positive_iff` |
| C114 | the default limit `N + N/2` is zero at order 0, so a perfectly conditioned grid is reported | `C114_design` |
| C116 | `spectrum` compares the number of frequency lines only: 4 and 5 samples share one axis | `C116_unequal_fails` |
| C117 | smoothing in `freq_resp` appends to the caller's list of labels; tuples raise `AttributeError` | `C117_labels_fail` |
| C118 | `transfer_function` draws every value with negative real part as -280 dB, phase zero | `C118_fails`, `C118_lost` |
| C119 | `sh_rms_map` ignores the incomplete last block of long signals; its mutable default `clim` carries over to later calls | `C119_tail_fails`, `C119_default_fails` |
| C120 | `doa` draws azimuths in (2 pi, 3 pi] on the opposite side and writes to the caller's array | `C120_azimuth_fails`, `C120_caller` |
| C121 | `spherical_function_map` writes to the caller's azimuth array | `C121_caller_fails` |
| C122 | `hrirs_ild_itd` leaves azimuths below -pi outside of the axes (`np.fmod` keeps the sign) | `C122_azimuth_fails` |
| C124 | `hull` assigns the colours of all faces to the valid ones only | `C124_colors_fail` |
| C126 | `sh_bar` leaves out signals beyond the last full group | `C126_rows_fail` |
| C127 | `sh_coeffs_overlay` keeps the type of the first entry; `sh_coeffs_subplot` fails for one entry | `C127_overlay_fails`, `C127_subplot_fails` |
| C131 | `spherical_function` fixes the axes to [-1, 1] whatever the values | `C131_axes_fails` |
| C132 | `hull_normals` fixes the axes to [-1, 1] whatever the distances | `C132_axes_fails` |
| C133 | `compare_ambi` asks for an attribute that signals do not have | `C133_fails` |
| C135 | in the row beyond the zenith angle of 180 degrees (drawn unless 180 is a multiple of `ele_steps`) `decoder_performance` compares the energy vector with the wrong azimuth: `sh_matrix` sees `|sin zen|`, `sph2cart` sees `sin zen` | `C135_error_fails` |
| C139 | VBAP takes the first triangle that contains the source up to a tolerance, so the gains of a source next to an edge depend on the order of the triangles, hence on the numbering | `C139_edge_fails` |
| C140 | `binauralize` drops loudspeakers whose signal never exceeds 10e-6, so superposition fails for quiet signals | `C140_binauralize_fails` |
| C141 | `calculate_face_normals` compares with the absolute tolerance 10e-6, so normals of small setups are not turned outwards and `pop_triangles` drops other triangles | `C141_normals_fail` |
| C142 | `binauralize` drops a quiet block that it would render as part of a longer signal, so blocks do not add up exactly | `C142_overlap_fails` |
| C143 | the normals of a setup and its mirror image differ in their sense when faces are tiny or edge-on, because the tolerance of `calculate_face_normals` is absolute | `C143_normals_fail` |
| C144 | the docstrings do not say so, but `allrad`/`allrad2` raise for signals of higher order where `sad`/`mad`/`epad` drop the surplus; lower orders of `sht_lstsq` change with the order when there are few samples | `C144_allrad`, `C144_lstsq_fails` |
| C145 | the MUSIC spectrum is not a function of the covariance when the eigenvalues on both sides of the cut agree | `C145_music_fails` |
| C146 | `estimate_num_sources` compares the variance of the eigenvalues (and the ratios with `10e-8` added) to a threshold without regard to their level: a field with one source at a tenth of the power has none, and `separate_cov` splits it at zero | `C146_count_fails`, `C146_default_fails`; `C146_count_partial` |
| C147 | the centre of the lowest band of `frac_octave_filterbank` is `sqrt(1 * f_lo)`, the geometric mean with 1 Hz, so it grows with the square root of the unit; the upper limit is `fs // 2`, a whole number of Hz, so that at odd rates (11025 Hz) a band is lost | `C147_lowest_fails`, `C147_alias_fails`; `C147_filterbank`, `C147_alias_partial` |
| C150 | a direction equally near to two grid points gets the response listed first, so the result depends on the numbering there | `C150_tie_fails`; `C150_nearest_partial`, `C150_binaural_partial` |
| C166 | the triplets are inverted with the positions instead of the directions of the loudspeakers, so with unequal distances a panned source arrives from a wrong direction | `C166_distances_fail`; `C166_arriving_partial` |
| C169 | the zenith offset is subtracted from every loudspeaker's zenith angle, which is no rotation of the head: with a quarter turn front and back are rendered from the same direction | `C169_tilt_fails`; `C169_orientation_partial` |
| C86 | a silent ear gives the largest time difference | `C86_silent` |

Further observations that are part of the model but outside the claims: `ambisonics_setup(N_kernel=None)` raises `TypeError` because `warn`
gets a wrong second argument (C40); empty blacklists remove all triangles (C36); a one-channel `MultiSignal` comes back from a file as a
`MonoSignal` (C82); `gain_clipping` of a Python scalar raises `TypeError`; `save_layout` truncates an existing file before it fails.

## 5. Not modelled

* `plot.py`: only the data handed to the drawing routines, for the functions named in C116 and following; ticks, colour bars, styles and views are not modelled. Audio playback, printing, texts of warnings and exceptions.
* Floating point rounding, `nan`/`inf` beyond the tests named above, integer overflow, speed and memory.
* Contents of the binary data files (grids, default HRIRs) and their download.
* `signal.hann`, `np.trapz` and other names that newer versions of scipy/numpy removed are taken to exist, with their documented meaning.
* Python pickling and process start-up; a pool is a set of workers with shared memory and locks as described in section 1.
