import Verif.Props.Renumbered
import Verif.Props.Blocks
import Verif.Props.Scaled
import Mathlib.Tactic

/-!
C143: mirror images. A mirrored source excites the spherical harmonics with some signs changed; mirrored loudspeakers play the mirrored sound field with the same
signals, and on a symmetric layout (with symmetric HRIRs) the mirrored scene swaps the loudspeakers (and the ears).
-/

namespace Verif.Props
open Real Matrix Polynomial Verif.Utils Verif.Decoder Verif.Sph Verif.Sig

/-- Reflection in the plane perpendicular to an axis: 0 exchanges front and back, 1 left and right, 2 top and bottom. -/
noncomputable def mirror (c : Fin 3) : Mat3 := Matrix.diagonal (Function.update 1 c (-1))

/-- The sign of a channel of order `n` and degree `m` in the mirrored sound field. -/
noncomputable def mirrorSign (c : Fin 3) (n : ℕ) (m : ℤ) : ℝ :=
  match c with
  | 0 => (-1) ^ m.natAbs * if m < 0 then -1 else 1
  | 1 => if m < 0 then -1 else 1
  | 2 => (-1) ^ (n + m.natAbs)

/-- The angles of a mirrored direction. -/
noncomputable def mirrorDir (c : Fin 3) (azi zen : ℝ) : ℝ × ℝ :=
  match c with
  | 0 => (π - azi, zen)
  | 1 => (-azi, zen)
  | 2 => (azi, π - zen)

theorem mirror_apply (c : Fin 3) (v : Vec3) : (mirror c).mulVec v = Function.update v c (-v c) := by
  funext d
  rw [mirror, Matrix.mulVec_diagonal]
  by_cases h : d = c
  · subst h; simp
  · simp [Function.update_of_ne h]

theorem mirror_orth (c : Fin 3) : (mirror c).transpose * mirror c = 1 := by
  rw [mirror, Matrix.diagonal_transpose, Matrix.diagonal_mul_diagonal, ← Matrix.diagonal_one]
  congr 1
  funext d
  by_cases h : d = c
  · subst h; simp
  · simp [Function.update_of_ne h]

theorem mirror_dirVec (c : Fin 3) (azi zen : ℝ) : dirVec (mirrorDir c azi zen).1 (mirrorDir c azi zen).2 = (mirror c).mulVec (dirVec azi zen) := by
  rw [mirror_apply]
  funext d
  fin_cases c <;> fin_cases d <;> simp [mirrorDir, dirVec, Function.update]

theorem mirror_zen (c : Fin 3) (azi : ℝ) {zen : ℝ} (hz : zen ∈ Set.Icc 0 π) : (mirrorDir c azi zen).2 ∈ Set.Icc 0 π := by
  obtain ⟨h1, h2⟩ := hz
  fin_cases c
  · exact ⟨h1, h2⟩
  · exact ⟨h1, h2⟩
  · exact ⟨by show 0 ≤ π - zen; linarith, by show π - zen ≤ π; linarith⟩

theorem legPoly_even (n : ℕ) : (legPoly n).comp (-X) = C ((-1) ^ n) * legPoly n := by
  induction n using Nat.twoStepInduction with
  | zero => simp [legPoly]
  | one => simp [legPoly]
  | more n h0 h1 =>
    rw [legPoly]
    simp only [mul_comp, sub_comp, C_comp, X_comp, h0, h1]
    rw [show ((-1 : ℝ) ^ (n + 2)) = (-1) ^ n by ring, show ((-1 : ℝ) ^ (n + 1)) = - (-1) ^ n by ring, C_neg]
    ring

theorem iterate_comp_neg (p : ℝ[X]) (m : ℕ) : derivative^[m] (p.comp (-X)) = C ((-1) ^ m) * (derivative^[m] p).comp (-X) := by
  induction m with
  | zero => simp
  | succ m ih =>
    rw [Function.iterate_succ_apply', ih, Function.iterate_succ_apply', derivative_C_mul, derivative_comp, derivative_neg, derivative_X, pow_succ]
    simp

theorem assocLegendre_neg (n m : ℕ) (x : ℝ) : assocLegendre n m (-x) = (-1) ^ (n + m) * assocLegendre n m x := by
  have h1 := iterate_comp_neg (legPoly n) m
  rw [legPoly_even, iterate_derivative_C_mul] at h1
  have h2 := congrArg (eval x) h1
  rw [eval_mul, eval_mul, eval_C, eval_C, eval_comp, eval_neg, eval_X] at h2
  have h3 : (derivative^[m] (legPoly n)).eval (-x) = (-1) ^ (n + m) * (derivative^[m] (legPoly n)).eval x := by
    have e : ((-1 : ℝ) ^ m) * (-1) ^ m = 1 := by rw [← mul_pow]; norm_num
    rw [pow_add, mul_comm ((-1 : ℝ) ^ n), mul_assoc, h2, ← mul_assoc, e, one_mul]
  unfold assocLegendre
  rw [h3, neg_sq]
  ring

theorem realSH_trig (n : ℕ) (m : ℤ) : ∃ K : ℝ, ∀ azi zen : ℝ, realSH n m azi zen
    = K * assocLegendre n m.natAbs (cos zen) * if m < 0 then sin (m.natAbs * azi) else cos (m.natAbs * azi) := by
  have hre : ∀ x y : ℝ, ((x : ℂ) * Complex.exp ((y : ℂ) * Complex.I)).re = x * cos y := fun x y => by
    rw [Complex.re_ofReal_mul, Complex.exp_ofReal_mul_I_re]
  have him : ∀ x y : ℝ, ((x : ℂ) * Complex.exp ((y : ℂ) * Complex.I)).im = x * sin y := fun x y => by
    rw [Complex.im_ofReal_mul, Complex.exp_ofReal_mul_I_im]
  rcases lt_trichotomy m 0 with h | h | h
  · refine ⟨√2 * (-1) ^ m.natAbs * √((2 * n + 1) / (4 * π) * ((n - m.natAbs).factorial / (n + m.natAbs).factorial)), fun azi zen => ?_⟩
    rw [realSH, if_neg h.ne, if_pos h, if_pos h, sphHarm, if_pos (abs_nonneg m), Int.natAbs_abs, sphHarmNonneg, him]
    ring
  · subst h
    refine ⟨√((2 * n + 1) / (4 * π) * ((n - 0).factorial / (n + 0).factorial)), fun azi zen => ?_⟩
    rw [realSH, if_pos rfl, if_neg (lt_irrefl _), sphHarm, if_pos le_rfl, Int.natAbs_zero, sphHarmNonneg, hre]
  · refine ⟨√2 * (-1) ^ m.natAbs * √((2 * n + 1) / (4 * π) * ((n - m.natAbs).factorial / (n + m.natAbs).factorial)), fun azi zen => ?_⟩
    rw [realSH, if_neg h.ne', if_neg (not_lt.2 h.le), if_neg (not_lt.2 h.le), sphHarm, if_pos (abs_nonneg m), Int.natAbs_abs, sphHarmNonneg, hre]
    ring

/-- **C143** Spherical harmonics in a mirrored direction: every channel keeps its absolute value, and its sign is a matter of order and degree only. -/
theorem C143_harmonics (c : Fin 3) (n : ℕ) (m : ℤ) (azi zen : ℝ) :
    realSH n m (mirrorDir c azi zen).1 (mirrorDir c azi zen).2 = mirrorSign c n m * realSH n m azi zen := by
  obtain ⟨K, hK⟩ := realSH_trig n m
  rw [hK, hK]
  fin_cases c
  · simp only [mirrorDir, mirrorSign]
    have hc : cos ((m.natAbs : ℝ) * (π - azi)) = (-1) ^ m.natAbs * cos (m.natAbs * azi) := by
      rw [mul_sub, cos_sub, cos_nat_mul_pi, sin_nat_mul_pi]; ring
    have hs : sin ((m.natAbs : ℝ) * (π - azi)) = (-1) ^ m.natAbs * -1 * sin (m.natAbs * azi) := by
      rw [mul_sub, sin_sub, cos_nat_mul_pi, sin_nat_mul_pi]; ring
    split_ifs
    · rw [hs]; ring
    · rw [hc]; ring
  · simp only [mirrorDir, mirrorSign]
    split_ifs
    · rw [mul_neg, sin_neg]; ring
    · rw [mul_neg, cos_neg]; ring
  · simp only [mirrorDir, mirrorSign]
    rw [cos_pi_sub, assocLegendre_neg]
    ring

/-- The channel of degree -1 at the left ear and its mirror image. -/
example : realSH 1 (-1) (-(π / 2)) (π / 2) = -realSH 1 (-1) (π / 2) (π / 2) := by
  have := C143_harmonics 1 1 (-1) (π / 2) (π / 2)
  simpa [mirrorDir, mirrorSign] using this

/-- The signals of the mirrored sound field: `F` with the signs of `mirrorSign`. -/
noncomputable def mirrorSig {K S : ℕ} (c : Fin 3) (F : Matrix (Fin K) (Fin S) ℝ) : Matrix (Fin K) (Fin S) ℝ :=
  fun q s => mirrorSign c (acnOrder q) (acnDegree q) * F q s

/-- **C143** Encoding mirrored sources gives the mirrored signals. -/
theorem C143_encode {n S : ℕ} (c : Fin 3) (sig : Matrix (Fin n) (Fin S) ℝ) (azi zen : Fin n → ℝ) (N : ℕ) :
    srcToSh sig (fun i => (mirrorDir c (azi i) (zen i)).1) (fun i => (mirrorDir c (azi i) (zen i)).2) N = mirrorSig c (srcToSh sig azi zen N) := by
  ext q s
  show (∑ i, _ * sig i s) = mirrorSign c _ _ * ∑ i, _ * sig i s
  rw [Finset.mul_sum]
  refine Finset.sum_congr rfl fun i _ => ?_
  rw [← mul_assoc]
  exact congrArg (· * sig i s) (C143_harmonics c _ _ _ _)

theorem mirrorSign_sq (c : Fin 3) (n : ℕ) (m : ℤ) : mirrorSign c n m * mirrorSign c n m = 1 := by
  have e : ∀ k : ℕ, ((-1 : ℝ) ^ k) * (-1) ^ k = 1 := fun k => by rw [← mul_pow]; norm_num
  fin_cases c
  · simp only [mirrorSign]
    split_ifs
    · linear_combination e m.natAbs
    · linear_combination e m.natAbs
  · simp only [mirrorSign]
    split_ifs <;> norm_num
  · exact e _

/-- Mirroring the signals twice restores them. -/
theorem C143_twice {K S : ℕ} (c : Fin 3) (F : Matrix (Fin K) (Fin S) ℝ) : mirrorSig c (mirrorSig c F) = F := by
  ext q s
  show mirrorSign c _ _ * (mirrorSign c _ _ * F q s) = _
  rw [← mul_assoc, mirrorSign_sq, one_mul]

theorem mirror_shAt {N J : ℕ} (c : Fin 3) (pts : Fin J → Vec3) (hp : ∀ j, pts j ≠ 0) :
    shAt N (fun j => (mirror c).mulVec (pts j)) = shAt N pts * (Matrix.diagonal fun q : Fin ((N + 1) ^ 2) => mirrorSign c (acnOrder q) (acnDegree q)).transpose := by
  have hR := mirror_orth c
  rw [Matrix.diagonal_transpose]
  ext j q
  have hp' : (mirror c).mulVec (pts j) ≠ 0 := fun h0 => hp j (by
    have := congrArg (mirror c).transpose.mulVec h0
    rwa [Matrix.mulVec_mulVec, hR, Matrix.one_mulVec, Matrix.mulVec_zero] at this)
  have hdir : dirVec (dirOf ((mirror c).mulVec (pts j))).1 (dirOf ((mirror c).mulVec (pts j))).2 = (mirror c).mulVec (dirVec (dirOf (pts j)).1 (dirOf (pts j)).2) := by
    rw [dirVec_dirOf _ hp', dirVec_dirOf _ (hp j), turn_norm hR]
    have : (fun d => pts j d / norm3 (pts j)) = (1 / norm3 (pts j)) • pts j := by funext c; simp [div_eq_inv_mul]
    rw [this, Matrix.mulVec_smul]
    funext c
    simp [div_eq_inv_mul]
  rw [← mirror_dirVec] at hdir
  have := congrFun (shVec_congr N (dirOf_zenith _) (mirror_zen c _ (dirOf_zenith _)) hdir) q
  rw [Matrix.mul_diagonal]
  show shVec N _ _ q = shVec N _ _ q * _
  rw [this, mul_comm]
  exact C143_harmonics c _ _ _ _

theorem mirror_decoders {L S K N : ℕ} (c : Fin 3) (lstsq : Mat3 → Mat3)
    (pinv : {m n : ℕ} → Matrix (Fin m) (Fin n) ℝ → Matrix (Fin n) (Fin m) ℝ) (hpinv : ∀ {m n : ℕ} (A : Matrix (Fin m) (Fin n) ℝ), IsPinv A (pinv A))
    (svd : {m n : ℕ} → Matrix (Fin m) (Fin n) ℝ → Matrix (Fin m) (Fin m) ℝ × Matrix (Fin n) (Fin n) ℝ)
    (hsvd : ∀ {m n : ℕ} (A : Matrix (Fin m) (Fin n) ℝ), IsSvd A (svd A).1 (svd A).2) (h : Hull L) (hp : ∀ l, h.points l ≠ 0)
    (No : Option ℕ) (d1 : decodingOrder lstsq h No = .ok N) (d2 : decodingOrder lstsq (turn (mirror c) h) No = .ok N) (F : Matrix (Fin K) (Fin S) ℝ) :
    sad lstsq (mirrorSig c F) (turn (mirror c) h) No = sad lstsq F h No ∧
      mad lstsq pinv (mirrorSig c F) (turn (mirror c) h) No = mad lstsq pinv F h No ∧
      ((N + 1) ^ 2 ≤ L → LinearIndependent ℝ (shAt N h.points).col →
        epad lstsq svd (mirrorSig c F) (turn (mirror c) h) No = epad lstsq svd F h No) := by
  refine decoders_turned lstsq pinv hpinv svd hsvd h _ No d1 d2 (Matrix.diagonal fun q : Fin ((N + 1) ^ 2) => mirrorSign c (acnOrder q) (acnDegree q)) ?_
    (mirror_shAt c h.points hp) F _ fun hK => ?_
  · rw [Matrix.diagonal_transpose, Matrix.diagonal_mul_diagonal, ← Matrix.diagonal_one]
    congr 1
    funext q
    exact mirrorSign_sq c _ _
  · ext q s
    rw [Matrix.diagonal_mul]
    rfl

/-- **C143** Ambisonic decoding: mirrored loudspeakers play the mirrored sound field with the same signals (`sad`, `mad`, and `epad` for loudspeakers in general
position), at an order that is given or that the loudspeakers determine. -/
theorem C143_decoders {L S K N : ℕ} (c : Fin 3) (lstsq : Mat3 → Mat3) (hl : LstsqSpec lstsq)
    (pinv : {m n : ℕ} → Matrix (Fin m) (Fin n) ℝ → Matrix (Fin n) (Fin m) ℝ) (hpinv : ∀ {m n : ℕ} (A : Matrix (Fin m) (Fin n) ℝ), IsPinv A (pinv A))
    (svd : {m n : ℕ} → Matrix (Fin m) (Fin n) ℝ → Matrix (Fin m) (Fin m) ℝ × Matrix (Fin n) (Fin n) ℝ)
    (hsvd : ∀ {m n : ℕ} (A : Matrix (Fin m) (Fin n) ℝ), IsSvd A (svd A).1 (svd A).2) (h : Hull L) (hp : ∀ l, h.points l ≠ 0)
    (hc : ∀ c ∈ h.centroids, c ≠ 0) (No : Option ℕ) (hNo : No = some N ∨ No = none ∧ getCharacteristicOrder lstsq h = .ok N)
    (F : Matrix (Fin K) (Fin S) ℝ) :
    sad lstsq (mirrorSig c F) (turn (mirror c) h) No = sad lstsq F h No ∧
      mad lstsq pinv (mirrorSig c F) (turn (mirror c) h) No = mad lstsq pinv F h No ∧
      ((N + 1) ^ 2 ≤ L → LinearIndependent ℝ (shAt N h.points).col →
        epad lstsq svd (mirrorSig c F) (turn (mirror c) h) No = epad lstsq svd F h No) := by
  obtain ⟨d1, d2⟩ := turn_order (C138_order lstsq hl _ (mirror_orth c) h hp hc) rfl hNo
  exact mirror_decoders c lstsq pinv hpinv svd hsvd h hp No d1 d2 F

/-- **C143** A symmetric layout (loudspeaker `σ l` is the mirror image of loudspeaker `l`): the mirrored sound field gives the same signals at the mirror images. -/
theorem C143_symmetric {L S K N : ℕ} (c : Fin 3) (lstsq : Mat3 → Mat3)
    (pinv : {m n : ℕ} → Matrix (Fin m) (Fin n) ℝ → Matrix (Fin n) (Fin m) ℝ) (hpinv : ∀ {m n : ℕ} (A : Matrix (Fin m) (Fin n) ℝ), IsPinv A (pinv A))
    (svd : {m n : ℕ} → Matrix (Fin m) (Fin n) ℝ → Matrix (Fin m) (Fin m) ℝ × Matrix (Fin n) (Fin n) ℝ)
    (hsvd : ∀ {m n : ℕ} (A : Matrix (Fin m) (Fin n) ℝ), IsSvd A (svd A).1 (svd A).2) (h : Hull L) (hp : ∀ l, h.points l ≠ 0)
    (σ : Equiv.Perm (Fin L)) (hσ : ∀ l, h.points (σ l) = (mirror c).mulVec (h.points l)) (No : Option ℕ)
    (hNo : No = some N ∨ No = none ∧ getCharacteristicOrder lstsq h = .ok N) (F : Matrix (Fin K) (Fin S) ℝ) :
    (sad lstsq (mirrorSig c F) h No).map (fun X => X.submatrix σ id) = sad lstsq F h No ∧
      (mad lstsq pinv (mirrorSig c F) h No).map (fun X => X.submatrix σ id) = mad lstsq pinv F h No ∧
      ((N + 1) ^ 2 ≤ L → LinearIndependent ℝ (shAt N h.points).col →
        (epad lstsq svd (mirrorSig c F) h No).map (fun X => X.submatrix σ id) = epad lstsq svd F h No) := by
  obtain ⟨d, -⟩ := turn_order (lstsq := lstsq) (h := h) (h' := h) rfl rfl hNo
  have e1 : ∀ G : Matrix (Fin K) (Fin S) ℝ, sad lstsq G h No = sad lstsq G h (some N) := fun G => by unfold sad; rw [d]; rfl
  have e2 : ∀ G : Matrix (Fin K) (Fin S) ℝ, mad lstsq pinv G h No = mad lstsq pinv G h (some N) := fun G => by unfold mad; rw [d]; rfl
  have e3 : ∀ G : Matrix (Fin K) (Fin S) ℝ, epad lstsq svd G h No = epad lstsq svd G h (some N) := fun G => by unfold epad; rw [d]; rfl
  rw [e1, e1, e2, e2, e3, e3]
  obtain ⟨a1, a2, a3⟩ := mirror_decoders c lstsq pinv hpinv svd hsvd h hp (some N) rfl rfl F
  obtain ⟨b1, b2, b3⟩ := C139_decoders (N := N) lstsq pinv hpinv svd hsvd σ h (turn (mirror c) h) (fun l => (hσ l).symm) (mirrorSig c F)
  exact ⟨b1.symm.trans a1, b2.symm.trans a2, fun h1 h2 => (b3 h1 h2).symm.trans (a3 h1 h2)⟩

/-- **C143** Encoding and decoding on a symmetric layout: mirrored sources give the signals of the original ones at the mirror images. -/
theorem C143_scene {L S n N : ℕ} (c : Fin 3) (lstsq : Mat3 → Mat3)
    (pinv : {m n : ℕ} → Matrix (Fin m) (Fin n) ℝ → Matrix (Fin n) (Fin m) ℝ) (hpinv : ∀ {m n : ℕ} (A : Matrix (Fin m) (Fin n) ℝ), IsPinv A (pinv A))
    (h : Hull L) (hp : ∀ l, h.points l ≠ 0) (σ : Equiv.Perm (Fin L)) (hσ : ∀ l, h.points (σ l) = (mirror c).mulVec (h.points l))
    (sig : Matrix (Fin n) (Fin S) ℝ) (azi zen : Fin n → ℝ) :
    (sad lstsq (srcToSh sig (fun i => (mirrorDir c (azi i) (zen i)).1) (fun i => (mirrorDir c (azi i) (zen i)).2) N) h (some N)).map (fun X => X.submatrix σ id)
        = sad lstsq (srcToSh sig azi zen N) h (some N) ∧
      (mad lstsq pinv (srcToSh sig (fun i => (mirrorDir c (azi i) (zen i)).1) (fun i => (mirrorDir c (azi i) (zen i)).2) N) h (some N)).map (fun X => X.submatrix σ id)
        = mad lstsq pinv (srcToSh sig azi zen N) h (some N) := by
  choose U V hUV using fun (m n : ℕ) (A : Matrix (Fin m) (Fin n) ℝ) => exists_svd A
  obtain ⟨h1, h2, -⟩ := C143_symmetric (N := N) c lstsq pinv hpinv (fun {m n} A => (U m n A, V m n A)) (fun A => hUV _ _ A) h hp σ hσ (some N) (.inl rfl) (srcToSh sig azi zen N)
  rw [C143_encode]
  exact ⟨h1, h2⟩

/-- **C143** Panning, selection of triangles and orders: `vbap`, `vbip`, `nearest_loudspeaker`, `pop_triangles` and `get_characteristic_order` do not tell a setup from
its mirror image. -/
theorem C143_mirrored {L : ℕ} (c : Fin 3) (lstsq : Mat3 → Mat3) (hl : LstsqSpec lstsq) (p : ℝ) (src : List Vec3) (valid : Option (List (Face L))) (retain : Bool)
    (t : Setup L) (h : Hull L) (s : Vec3) (normal aperture opening : Option ℝ) (blacklist : Option (List ℕ)) :
    (vbap lstsq p (src.map (mirror c).mulVec) valid retain (turnSetup (mirror c) t)).1 = (vbap lstsq p src valid retain t).1 ∧
      (vbip lstsq p (src.map (mirror c).mulVec) valid retain (turnSetup (mirror c) t)).1 = (vbip lstsq p src valid retain t).1 ∧
      nearestLoudspeaker (turn (mirror c) h) ((mirror c).mulVec s) = nearestLoudspeaker h s ∧
      popTriangles (turn (mirror c) h) normal aperture opening blacklist = turn (mirror c) (popTriangles h normal aperture opening blacklist) ∧
      ((∀ l, h.points l ≠ 0) → (∀ c ∈ h.centroids, c ≠ 0) → getCharacteristicOrder lstsq (turn (mirror c) h) = getCharacteristicOrder lstsq h) :=
  ⟨by rw [(C138_panning lstsq hl _ (mirror_orth c) p src valid retain t).1], by rw [(C138_panning lstsq hl _ (mirror_orth c) p src valid retain t).2],
    C138_nls _ (mirror_orth c) h s, C138_pop _ (mirror_orth c) h normal aperture opening blacklist, C138_order lstsq hl _ (mirror_orth c) h⟩

theorem mirror_twice (c : Fin 3) (v : Vec3) : (mirror c).mulVec ((mirror c).mulVec v) = v := by
  funext d
  rw [mirror_apply, mirror_apply]
  by_cases h : d = c
  · subst h; simp
  · simp [Function.update_of_ne h]

theorem turn_cache {L : ℕ} {lstsq : Mat3 → Mat3} (hl : LstsqSpec lstsq) {R : Mat3} (hR : R.transpose * R = 1) {h : Hull L} (hc : CacheOk lstsq h) :
    CacheOk lstsq (turn R h) := by
  intro b hb
  obtain ⟨b', h1, h2⟩ := Option.map_eq_some_iff.1 (show h.invBase.map (fun b => b.map (· * R.transpose)) = some b from hb)
  have := turn_vbase hl hR { h with invBase := none } h.valid
  unfold vbase at this
  simp only [turn, Option.map_none] at this
  rw [← h2, hc b' h1]
  exact this.symm

/-- **C143** VBAP on a symmetric layout: a mirrored source gets the mirrored gains, provided it lies in at most one triangle up to the tolerance. -/
theorem C143_vbap {L : ℕ} (c : Fin 3) (lstsq : Mat3 → Mat3) (hl : LstsqSpec lstsq) {p : ℝ} (hp : 0 < p) (h : Hull L) (hc : CacheOk lstsq h)
    (σ : Equiv.Perm (Fin L)) (hσ : ∀ l, h.points (σ l) = (mirror c).mulVec (h.points l)) (hF : SameTriangles σ h.valid h.valid)
    (hinj : ∀ f ∈ h.valid, Function.Injective f) (hli : ∀ f ∈ h.valid, LinearIndependent ℝ fun i => h.points (f i)) (hd : ∀ l, h.d l = norm3 (h.points l))
    (src : List Vec3) (hu : ∀ s ∈ src, ∀ f₁ ∈ h.valid, ∀ f₂ ∈ h.valid, Inside p h.points f₁ s → Inside p h.points f₂ s → f₁ = f₂) :
    ∃ rows rows' : List (Fin L → ℝ), (vbapHull lstsq p src none h).1 = .ok rows ∧ (vbapHull lstsq p (src.map (mirror c).mulVec) none h).1 = .ok rows' ∧
      rows = rows'.map fun g l => g (σ l) := by
  have hR := mirror_orth c
  have hσ' : ∀ l, h.points l = (mirror c).mulVec (h.points (σ.symm l)) := fun l => by rw [← hσ, Equiv.apply_symm_apply]
  have hin : ∀ (f : Face L) (s : Vec3), Inside p (fun l => (mirror c).mulVec (h.points l)) f ((mirror c).mulVec s) → Inside p h.points f s := by
    rintro f s ⟨k, h1, h2⟩
    refine ⟨k, ?_, h2⟩
    have h3 : (mirror c).mulVec (∑ i, k i • h.points (f i)) = (mirror c).mulVec s := by
      rw [← h1, ← Matrix.mulVecLin_apply, map_sum]
      exact Finset.sum_congr rfl fun i _ => Matrix.mulVec_smul (mirror c) (k i) (h.points (f i))
    have := congrArg (mirror c).mulVec h3
    rwa [mirror_twice, mirror_twice] at this
  have hF' : SameTriangles σ.symm h.valid h.valid := by
    have key : ∀ f g : Face L, (∀ l, (∃ i, σ (g i) = l) ↔ ∃ i, f i = l) → ∀ l, (∃ i, σ.symm (f i) = l) ↔ ∃ i, g i = l := fun f g e l => by
      constructor
      · rintro ⟨i, rfl⟩
        obtain ⟨j, hj⟩ := (e (f i)).2 ⟨i, rfl⟩
        exact ⟨j, by rw [← hj, Equiv.symm_apply_apply]⟩
      · rintro ⟨j, rfl⟩
        obtain ⟨i, hi⟩ := (e (σ (g j))).1 ⟨j, rfl⟩
        exact ⟨i, by rw [hi, Equiv.symm_apply_apply]⟩
    refine ⟨fun f hf => ?_, fun f hf => ?_⟩
    · obtain ⟨g, hg, e⟩ := hF.2 f hf
      exact ⟨g, hg, key _ _ e⟩
    · obtain ⟨g, hg, e⟩ := hF.1 f hf
      exact ⟨g, hg, key _ _ e⟩
  have hn : ∀ l, h.d l = h.d (σ.symm l) := fun l => by rw [hd, hd, hσ' l, turn_norm hR]
  obtain ⟨rows, r1, r2⟩ := C139_vbap lstsq hl hp σ.symm (turn (mirror c) h) h (turn_cache hl hR hc) hc hσ' hn rfl hinj hinj
    (fun f hf => by
      have := (hli f hf).map' (mirror c).mulVecLin (by
        rw [LinearMap.ker_eq_bot]
        intro x y hxy
        have := congrArg (mirror c).mulVec (show (mirror c).mulVec x = (mirror c).mulVec y from hxy)
        rwa [mirror_twice, mirror_twice] at this)
      exact this)
    (fun l => by show h.d l = norm3 ((mirror c).mulVec (h.points l)); rw [turn_norm hR, hd]) hF' (src.map (mirror c).mulVec) (by
      intro s hs f₁ h₁ f₂ h₂ i₁ i₂
      obtain ⟨s', hs', rfl⟩ := List.mem_map.1 hs
      exact hu s' hs' f₁ h₁ f₂ h₂ (hin _ _ i₁) (hin _ _ i₂))
  rw [C138_vbap lstsq hl _ hR] at r1
  refine ⟨rows, _, r1, r2, ?_⟩
  rw [List.map_map]
  conv_lhs => rw [← List.map_id rows]
  refine List.map_congr_left fun g _ => ?_
  funext l
  simp

/-- **C143** Nearest loudspeaker on a symmetric layout. -/
theorem C143_nls {L : ℕ} (c : Fin 3) (h : Hull L) (σ : Equiv.Perm (Fin L)) (hσ : ∀ l, h.points (σ l) = (mirror c).mulVec (h.points l))
    (hd : ∀ l, h.d l = norm3 (h.points l)) (s : Vec3) (hu : ∃ b, ∀ l, l ≠ b → s ⬝ᵥ (fun c => h.points l c / h.d l) < s ⬝ᵥ fun c => h.points b c / h.d b) :
    ∃ g g', nearestLoudspeaker h s = .ok g ∧ nearestLoudspeaker h ((mirror c).mulVec s) = .ok g' ∧ g = fun l => g' (σ l) := by
  have hR := mirror_orth c
  have hσ' : ∀ l, h.points l = (mirror c).mulVec (h.points (σ.symm l)) := fun l => by rw [← hσ, Equiv.apply_symm_apply]
  have hn : ∀ l, h.d l = h.d (σ.symm l) := fun l => by rw [hd, hd, hσ' l, turn_norm hR]
  obtain ⟨b, hb⟩ := hu
  have hq : ∀ l, (mirror c).mulVec s ⬝ᵥ (fun d => (turn (mirror c) h).points l d / (turn (mirror c) h).d l) = s ⬝ᵥ fun d => h.points l d / h.d l := fun l => by
    have e : (fun d => (turn (mirror c) h).points l d / (turn (mirror c) h).d l) = (mirror c).mulVec fun d => h.points l d / h.d l := by
      have : (fun d => h.points l d / h.d l) = (1 / h.d l) • h.points l := by funext c; simp [div_eq_inv_mul]
      rw [this, Matrix.mulVec_smul]
      funext d
      simp [turn, div_eq_inv_mul]
    rw [e, turn_dot hR]
  obtain ⟨g, h1, h2⟩ := C139_nls σ.symm (turn (mirror c) h) h hσ' hn rfl ((mirror c).mulVec s) ⟨b, fun l hl => by rw [hq, hq]; exact hb l hl⟩
  rw [C138_nls _ hR] at h1
  exact ⟨g, _, h1, h2, by funext l; simp⟩

theorem mirror_cross (c : Fin 3) (v w : Vec3) : crossProduct ((mirror c).mulVec v) ((mirror c).mulVec w) = -(mirror c).mulVec (crossProduct v w) := by
  simp only [mirror_apply]
  funext d
  fin_cases c <;> fin_cases d <;> simp [cross_apply, Function.update] <;> ring

/-- **C143** Building a setup of mirrored loudspeakers around a mirrored listener gives the mirrored setup, provided no face is seen edge-on from the centre of mass up to
the tolerance of `calculate_face_normals` (qhull is assumed to list the same faces). -/
theorem C143_setup {L : ℕ} (c : Fin 3) (qhull : (L : ℕ) → (Fin L → Vec3) → Py (List (Face L))) (points : Fin L → Vec3) (listener : Vec3)
    (hq : qhull L (fun l => (mirror c).mulVec (points l - listener)) = qhull L fun l => points l - listener)
    (hs : ∀ faces, qhull L (fun l => points l - listener) = .ok faces → ∀ f ∈ sortVertices faces, Sided (fun l => points l - listener) f) :
    mkHull qhull (fun l => (mirror c).mulVec (points l)) ((mirror c).mulVec listener) = (mkHull qhull points listener).map (turn (mirror c)) := by
  refine mkHull_turned qhull _ (mirror_orth c) points listener hq fun faces hf => ?_
  obtain ⟨pts, hpts⟩ : ∃ pts : Fin L → Vec3, pts = fun l => points l - listener := ⟨_, rfl⟩
  have hs' := hs faces hf
  rw [← hpts] at hs'
  have e : (fun l => (mirror c).mulVec (points l - listener)) = fun l => (mirror c).mulVec (pts l) := by rw [hpts]
  rw [e, ← hpts]
  simp only [calculateFaceNormals, List.map_map]
  refine List.map_congr_left fun f hf => ?_
  have := hs' f hf
  unfold Sided at this
  simp only [faceNormal, turn_centroid, turn_barycenter, ← Matrix.mulVec_sub, mirror_cross, add_sub_cancel_left, neg_dotProduct, turn_dot (mirror_orth c), Function.comp]
  rw [if_neg Bool.false_ne_true, if_neg Bool.false_ne_true]
  set x := crossProduct (pts (f 1) - pts (f 0)) (pts (f 2) - pts (f 0)) ⬝ᵥ (calculateBarycenter pts - centroid pts f)
  rcases lt_abs.1 this with h1 | h1
  · rw [if_neg (by norm_num at h1 ⊢; linarith), if_pos h1, Matrix.mulVec_neg]
  · rw [if_pos h1, if_neg (by norm_num at h1 ⊢; linarith), neg_neg]

/-- **C143** fails for the face normals when faces are seen edge-on up to the tolerance, which is absolute: for an octahedron of one centimetre and its mirror image the
normal of the same triangle points outwards in one and inwards in the other. -/
theorem C143_normals_fail : faceNormal (fun l => (mirror 1).mulVec ((1 / 100 : ℝ) • Oct.pts l)) (calculateBarycenter fun l => (mirror 1).mulVec ((1 / 100 : ℝ) • Oct.pts l)) 10e-6 false ![0, 2, 5] ≠
    (mirror 1).mulVec (faceNormal (fun l => (1 / 100 : ℝ) • Oct.pts l) (calculateBarycenter fun l => (1 / 100 : ℝ) • Oct.pts l) 10e-6 false ![0, 2, 5]) := by
  have h1 : faceNormal (fun l => (1 / 100 : ℝ) • Oct.pts l) (calculateBarycenter fun l => (1 / 100 : ℝ) • Oct.pts l) 10e-6 false ![0, 2, 5] = ((1 / 100 : ℝ) ^ 2) • ![-1, -1, 1] := by
    unfold faceNormal
    simp only [← smul_sub, cross_smul, face025.1, centroid_smul, face025.2, barycenter_smul, Oct.barycenter_pts, add_sub_cancel_left, Bool.false_eq_true, if_false]
    rw [if_neg]
    simp [dotProduct, Fin.sum_univ_three]; norm_num
  have h2 : faceNormal (fun l => (mirror 1).mulVec ((1 / 100 : ℝ) • Oct.pts l)) (calculateBarycenter fun l => (mirror 1).mulVec ((1 / 100 : ℝ) • Oct.pts l)) 10e-6 false ![0, 2, 5]
      = -(mirror 1).mulVec (((1 / 100 : ℝ) ^ 2) • ![-1, -1, 1]) := by
    unfold faceNormal
    simp only [turn_centroid (mirror 1) (fun l => (1 / 100 : ℝ) • Oct.pts l), turn_barycenter (mirror 1) (fun l => (1 / 100 : ℝ) • Oct.pts l), ← Matrix.mulVec_sub, mirror_cross,
      add_sub_cancel_left, neg_dotProduct, turn_dot (mirror_orth 1), ← smul_sub, cross_smul, face025.1, centroid_smul, face025.2, barycenter_smul, Oct.barycenter_pts, Bool.false_eq_true, if_false]
    rw [if_neg]
    simp [dotProduct, Fin.sum_univ_three]; norm_num
  rw [h1, h2]
  intro h
  have := congrFun h 2
  simp [mirror_apply] at this
  norm_num at this

/-! #### both ears -/

/-- A set of HRIRs that is symmetric: every direction has a mirror image with exchanged ears. -/
def SymmetricHrirs (hr : HRIRs) : Prop :=
  ∀ (i : ℕ) (a z : ℝ), hr.azi[i]? = some a → hr.zen[i]? = some z → ∃ (j : ℕ) (a' z' : ℝ), hr.azi[j]? = some a' ∧ hr.zen[j]? = some z' ∧
    dirVec a' z' = (mirror 1).mulVec (dirVec a z) ∧ hr.left.rows.getD j [] = hr.right.rows.getD i [] ∧ hr.right.rows.getD j [] = hr.left.rows.getD i []

/-- Index `i` is a direction of the set with the smallest distance to `(a, z)`. -/
def Closest (hr : HRIRs) (a z : ℝ) (i : ℕ) : Prop :=
  ∃ ga gz : ℝ, hr.azi[i]? = some ga ∧ hr.zen[i]? = some gz ∧ ∀ (j : ℕ) (a' z' : ℝ), hr.azi[j]? = some a' → hr.zen[j]? = some z' → haversine a z ga gz ≤ haversine a z a' z'

theorem haversine_arccos (a z b w : ℝ) : haversine a z b w = arccos (dirVec a z ⬝ᵥ dirVec b w) := by
  rw [C03_haversine_eq_angle, one_mul, InnerProductGeometry.angle, norm_unitVec, norm_unitVec, inner_unitVec, mul_one, div_one]
  congr 1
  simp only [dirVec, dotProduct, Fin.sum_univ_three, cos_sub]
  simp
  ring

theorem haversine_dir {a z b w a' z' b' w' : ℝ} (h1 : dirVec a' z' = (mirror 1).mulVec (dirVec a z)) (h2 : dirVec b' w' = (mirror 1).mulVec (dirVec b w)) :
    haversine a' z' b' w' = haversine a z b w := by
  rw [haversine_arccos, haversine_arccos, h1, h2, turn_dot (mirror_orth 1)]

theorem mirror_angles (v : Vec3) (o : ℝ × ℝ) :
    dirVec ((cart2sph ((mirror 1).mulVec v 0) ((mirror 1).mulVec v 1) ((mirror 1).mulVec v 2) false false).1 - -o.1)
        ((cart2sph ((mirror 1).mulVec v 0) ((mirror 1).mulVec v 1) ((mirror 1).mulVec v 2) false false).2.1 - o.2)
      = (mirror 1).mulVec (dirVec ((cart2sph (v 0) (v 1) (v 2) false false).1 - o.1) ((cart2sph (v 0) (v 1) (v 2) false false).2.1 - o.2)) := by
  have e0 : (mirror 1).mulVec v 0 = v 0 := by rw [mirror_apply]; simp
  have e1 : (mirror 1).mulVec v 1 = -v 1 := by rw [mirror_apply]; simp
  have e2 : (mirror 1).mulVec v 2 = v 2 := by rw [mirror_apply]; simp
  rw [e0, e1, e2]
  have hz : (cart2sph (v 0) (-v 1) (v 2) false false).2.1 = (cart2sph (v 0) (v 1) (v 2) false false).2.1 := by
    unfold cart2sph; rw [neg_sq]
  have ha : (cart2sph (v 0) (-v 1) (v 2) false false).1 = Complex.arg (starRingEnd ℂ ⟨v 0, v 1⟩) := rfl
  have hb : (cart2sph (v 0) (v 1) (v 2) false false).1 = Complex.arg ⟨v 0, v 1⟩ := rfl
  rw [hz, ha, hb]
  generalize (cart2sph (v 0) (v 1) (v 2) false false).2.1 = t
  obtain ⟨w, hw⟩ : ∃ w : ℂ, w = ⟨v 0, v 1⟩ := ⟨_, rfl⟩
  rw [← hw]
  have hc : cos (Complex.arg (starRingEnd ℂ w)) = cos (Complex.arg w) ∧ sin (Complex.arg (starRingEnd ℂ w)) = -sin (Complex.arg w) := by
    rw [Complex.arg_conj]
    split_ifs with h
    · rw [h, sin_pi, neg_zero]; exact ⟨rfl, rfl⟩
    · exact ⟨cos_neg _, sin_neg _⟩
  have c1 : cos (Complex.arg (starRingEnd ℂ w) - -o.1) = cos (Complex.arg w - o.1) := by rw [sub_neg_eq_add, cos_add, cos_sub, hc.1, hc.2]; ring
  have s1 : sin (Complex.arg (starRingEnd ℂ w) - -o.1) = -sin (Complex.arg w - o.1) := by rw [sub_neg_eq_add, sin_add, sin_sub, hc.1, hc.2]; ring
  rw [mirror_apply]
  rw [sub_neg_eq_add] at c1 s1
  funext d
  fin_cases d <;> simp [dirVec, Function.update, c1, s1]

/-- **C143** Binaural rendering of a symmetric layout with a symmetric set of HRIRs: exchanging the signals of left and right loudspeakers and mirroring the orientation
exchanges the ears, provided every loudspeaker has a single nearest direction in the set. -/
theorem C143_binauralize {L S : ℕ} (h : Hull L) (σ : Equiv.Perm (Fin L)) (hσ : ∀ l, h.points (σ l) - h.listener = (mirror 1).mulVec (h.points l - h.listener))
    (o : ℝ × ℝ) (hr : HRIRs) (hc : hr.Consistent) (hne : hr.azi ≠ []) (hT : 1 ≤ hr.numSamples) (hS : 1 ≤ S) (hsym : SymmetricHrirs hr)
    (hu : ∀ l (i j : ℕ), let v := h.points l - h.listener
      Closest hr ((cart2sph (v 0) (v 1) (v 2) false false).1 - o.1) ((cart2sph (v 0) (v 1) (v 2) false false).2.1 - o.2) i →
      Closest hr ((cart2sph (v 0) (v 1) (v 2) false false).1 - o.1) ((cart2sph (v 0) (v 1) (v 2) false false).2.1 - o.2) j → i = j)
    (x : Matrix (Fin L) (Fin S) ℝ) :
    ∃ l r : List ℝ, binauralize h x hr.fs o hr = .ok (l, r) ∧ binauralize h (x.submatrix σ.symm id) hr.fs (-o.1, o.2) hr = .ok (r, l) := by
  classical
  obtain ⟨idx, hi, hx⟩ := binauralize_lengths h o hr hc hne hT
  obtain ⟨idx', hi', hx'⟩ := binauralize_lengths h (-o.1, o.2) hr hc hne hT
  obtain ⟨l, r, x1, x2, x3, x4⟩ := hx S hS x
  obtain ⟨l', r', y1, y2, y3, y4⟩ := hx' S hS (x.submatrix σ.symm id)
  have hrows : ∀ k, hr.left.rows.getD (idx' (σ k)) [] = hr.right.rows.getD (idx k) [] ∧ hr.right.rows.getD (idx' (σ k)) [] = hr.left.rows.getD (idx k) [] := by
    intro k
    obtain ⟨ga, gz, g1, g2, g3⟩ := hi' (σ k)
    obtain ⟨ka, kz, k1, k2, k3⟩ := hi k
    obtain ⟨j, a', z', j1, j2, j3, j4, j5⟩ := hsym _ _ _ g1 g2
    simp only [hσ] at g3
    have hd := mirror_angles (h.points k - h.listener) o
    have hd' := congrArg (mirror 1).mulVec hd
    have hj := congrArg (mirror 1).mulVec j3
    rw [mirror_twice] at hd' hj
    have hcl : Closest hr ((cart2sph ((h.points k - h.listener) 0) ((h.points k - h.listener) 1) ((h.points k - h.listener) 2) false false).1 - o.1)
        ((cart2sph ((h.points k - h.listener) 0) ((h.points k - h.listener) 1) ((h.points k - h.listener) 2) false false).2.1 - o.2) j := by
      refine ⟨a', z', j1, j2, fun i b w hb hw => ?_⟩
      obtain ⟨i', b', w', i1, i2, i3, -, -⟩ := hsym _ _ _ hb hw
      rw [haversine_dir hd'.symm j3, ← haversine_dir hd i3]
      exact (g3 i' b' w' i1 i2).1
    have : j = idx k := hu k j (idx k) hcl ⟨ka, kz, k1, k2, fun i b w hb hw => (k3 i b w hb hw).1⟩
    rw [this] at j4 j5
    exact ⟨j5.symm, j4.symm⟩
  have hg : ∀ k, norm3 (h.points (σ k) - h.listener) = norm3 (h.points k - h.listener) := fun k => by rw [hσ, turn_norm (mirror_orth 1)]
  have hxk : ∀ k s, x.submatrix σ.symm id (σ k) s = x k s := fun k s => by simp
  have eq : l' = r ∧ r' = l := by
    constructor
    · refine List.ext_getElem (by rw [y2, x3]) fun n h1 h2 => ?_
      rw [← List.getD_eq_getElem _ 0 h1, ← List.getD_eq_getElem _ 0 h2, (y4 n (y2 ▸ h1)).1, (x4 n (x3 ▸ h2)).2, ← Equiv.sum_comp σ]
      refine Finset.sum_congr rfl fun k _ => ?_
      simp only [hg, hxk, (hrows k).1]
    · refine List.ext_getElem (by rw [y3, x2]) fun n h1 h2 => ?_
      rw [← List.getD_eq_getElem _ 0 h1, ← List.getD_eq_getElem _ 0 h2, (y4 n (y3 ▸ h1)).2, (x4 n (x2 ▸ h2)).1, ← Equiv.sum_comp σ]
      refine Finset.sum_congr rfl fun k _ => ?_
      simp only [hg, hxk, (hrows k).2]
  exact ⟨l, r, x1, by rw [y1, eq.1, eq.2]⟩

/-! #### examples -/

theorem oct_mirror (l : Fin 6) : Oct.pts (Equiv.swap 2 3 l) = (mirror 1).mulVec (Oct.pts l) := by
  rw [mirror_apply]
  funext d
  fin_cases l <;> fin_cases d <;> simp [Oct.pts, Function.update, Equiv.swap_apply_def]

/-- `C143_vbap`, `C143_nls`: a source in front, to the left and above the octahedron, and its mirror image on the right. -/
example : ∃ lstsq : Mat3 → Mat3, LstsqSpec lstsq ∧ (∃ rows rows' : List (Fin 6 → ℝ), (vbapHull lstsq 2 [![1, 2, 3]] none Oct.hull).1 = .ok rows ∧
    (vbapHull lstsq 2 [![1, -2, 3]] none Oct.hull).1 = .ok rows' ∧ rows = rows'.map fun g l => g (Equiv.swap 2 3 l)) ∧
    ∃ g g', nearestLoudspeaker Oct.hull ![1, 2, 3] = .ok g ∧ nearestLoudspeaker Oct.hull ![1, -2, 3] = .ok g' ∧ g = fun l => g' (Equiv.swap 2 3 l) := by
  obtain ⟨lstsq, hl⟩ := exists_lstsq3
  have hm : (mirror 1).mulVec ![1, 2, 3] = ![1, -2, 3] := by
    rw [mirror_apply]; funext d; fin_cases d <;> simp [Function.update]
  refine ⟨lstsq, hl, ?_, ?_⟩
  · have := C143_vbap 1 lstsq hl (p := 2) (by norm_num) Oct.hull (oct_cache lstsq) (Equiv.swap 2 3) oct_mirror oct_same Oct.inj Oct.li (fun l => (Oct.norm_pts l).symm) [![1, 2, 3]] (by
      intro s hs f₁ hf₁ f₂ hf₂ h1 h2
      obtain rfl := List.mem_singleton.1 hs
      rw [oct_inside f₁ hf₁ h1, oct_inside f₂ hf₂ h2])
    rwa [List.map_singleton, hm] at this
  · have := C143_nls 1 Oct.hull (Equiv.swap 2 3) oct_mirror (fun l => (Oct.norm_pts l).symm) ![1, 2, 3] ⟨4, fun l hl => by
      fin_cases l <;> first | exact absurd rfl hl | (simp [Oct.hull, Oct.pts, dotProduct, Fin.sum_univ_three]; try norm_num)⟩
    rwa [hm] at this

/-- `C143_setup`: the mirrored octahedron. -/
example : mkHull Oct.qhull (fun l => (mirror 2).mulVec (Oct.pts l)) 0 = .ok (turn (mirror 2) Oct.hull) := by
  have := C143_setup 2 Oct.qhull Oct.pts 0 rfl (by
    intro faces hf f hff
    have h0 : (fun l => Oct.pts l - 0) = Oct.pts := by funext l; rw [sub_zero]
    rw [h0] at hf ⊢
    have : mkHull Oct.qhull Oct.pts 0 = .ok Oct.hull := Oct.mkHull_eq
    have hq : Oct.qhull 6 Oct.pts = .ok Oct.rawFaces := dif_pos rfl
    rw [hq] at hf
    obtain rfl := Except.ok.inj hf
    have hs : sortVertices Oct.rawFaces = Oct.faces := by decide +kernel
    rw [hs] at hff
    unfold Sided
    rw [Oct.barycenter_pts]
    simp only [Oct.faces, List.mem_cons, List.not_mem_nil, or_false] at hff
    rcases hff with rfl | rfl | rfl | rfl | rfl | rfl | rfl | rfl <;>
      simp [Oct.pts, centroid, cross_apply, dotProduct, Fin.sum_univ_three] <;> norm_num)
  rw [Oct.mkHull_eq, Matrix.mulVec_zero] at this
  exact this

/-- The first order harmonics of the octahedron are linearly independent. -/
theorem oct_rank : LinearIndependent ℝ (shAt 1 Oct.pts).col := by
  rw [← Matrix.mulVec_injective_iff, ← Matrix.coe_mulVecLin, ← LinearMap.ker_eq_bot, LinearMap.ker_eq_bot']
  intro x hx
  have key : ∀ l : Fin 6, shVec 1 (dirOf (Oct.pts l)).1 (dirOf (Oct.pts l)).2 0 * x 0 + shVec 1 (dirOf (Oct.pts l)).1 (dirOf (Oct.pts l)).2 1 * x 1 +
      shVec 1 (dirOf (Oct.pts l)).1 (dirOf (Oct.pts l)).2 2 * x 2 + shVec 1 (dirOf (Oct.pts l)).1 (dirOf (Oct.pts l)).2 3 * x 3 = 0 := fun l => by
    have := congrFun hx l
    rw [Matrix.mulVecLin_apply] at this
    have e : (shAt 1 Oct.pts).mulVec x l = ∑ q : Fin 4, shVec 1 (dirOf (Oct.pts l)).1 (dirOf (Oct.pts l)).2 q * x q := rfl
    rw [e, Fin.sum_univ_four] at this
    exact this
  have hd : ∀ l, dirVec (dirOf (Oct.pts l)).1 (dirOf (Oct.pts l)).2 = Oct.pts l := fun l => by
    rw [dirVec_dirOf _ (Oct.pts_ne l), Oct.norm_pts]
    simp
  have h4 : 0 < √(4 * π) := by positivity
  have h3 : (0 : ℝ) < √3 := by positivity
  have key2 : ∀ l : Fin 6, x 0 + √3 * (Oct.pts l 1 * x 1 + Oct.pts l 2 * x 2 + Oct.pts l 0 * x 3) = 0 := fun l => by
    obtain ⟨r0, r1, r2, r3⟩ := realSH_first (dirOf (Oct.pts l)).1 (dirOf (Oct.pts l)).2 (dirOf_zenith _)
    have e0 : shVec 1 (dirOf (Oct.pts l)).1 (dirOf (Oct.pts l)).2 0 = 1 / √(4 * π) := r0
    have e1 : shVec 1 (dirOf (Oct.pts l)).1 (dirOf (Oct.pts l)).2 1 = √3 / √(4 * π) * Oct.pts l 1 := r1.trans (congrArg (√3 / √(4 * π) * ·) (congrFun (hd l) 1))
    have e2 : shVec 1 (dirOf (Oct.pts l)).1 (dirOf (Oct.pts l)).2 2 = √3 / √(4 * π) * Oct.pts l 2 := by
      have ho : acnOrder (((2 : Fin ((1 + 1) ^ 2)) : ℕ)) = 1 ∧ acnDegree (((2 : Fin ((1 + 1) ^ 2)) : ℕ)) = 0 := by decide +kernel
      show realSH (acnOrder (((2 : Fin ((1 + 1) ^ 2)) : ℕ))) (acnDegree (((2 : Fin ((1 + 1) ^ 2)) : ℕ))) _ _ = _
      rw [ho.1, ho.2]
      exact r2.trans (congrArg (√3 / √(4 * π) * ·) (congrFun (hd l) 2))
    have e3 : shVec 1 (dirOf (Oct.pts l)).1 (dirOf (Oct.pts l)).2 3 = √3 / √(4 * π) * Oct.pts l 0 := by
      have ho : acnOrder (((3 : Fin ((1 + 1) ^ 2)) : ℕ)) = 1 ∧ acnDegree (((3 : Fin ((1 + 1) ^ 2)) : ℕ)) = 1 := by decide +kernel
      show realSH (acnOrder (((3 : Fin ((1 + 1) ^ 2)) : ℕ))) (acnDegree (((3 : Fin ((1 + 1) ^ 2)) : ℕ))) _ _ = _
      rw [ho.1, ho.2]
      exact r3.trans (congrArg (√3 / √(4 * π) * ·) (congrFun (hd l) 0))
    have := key l
    rw [e0, e1, e2, e3] at this
    field_simp at this
    linarith
  have k0 := key2 0
  have k1 := key2 1
  have k2 := key2 2
  have k3 := key2 3
  have k4 := key2 4
  have k5 := key2 5
  simp [Oct.pts] at k0 k1 k2 k3 k4 k5
  have z0 : x 0 = 0 := by linarith
  have hz : ∀ t : ℝ, √3 * t = 0 → t = 0 := fun t ht => (mul_eq_zero.1 ht).resolve_left h3.ne'
  have z3 : x 3 = 0 := hz _ (by linarith)
  have z1 : x 1 = 0 := hz _ (by linarith)
  have z2 : x 2 = 0 := hz _ (by linarith)
  funext q
  change Fin 4 at q
  fin_cases q
  · exact z0
  · exact z1
  · exact z2
  · exact z3

/-- `C143_symmetric` on the octahedron at first order, all three decoders. -/
example (F : Matrix (Fin 4) (Fin 3) ℝ) : ∃ (lstsq : Mat3 → Mat3) (pinv : {m n : ℕ} → Matrix (Fin m) (Fin n) ℝ → Matrix (Fin n) (Fin m) ℝ)
    (svd : {m n : ℕ} → Matrix (Fin m) (Fin n) ℝ → Matrix (Fin m) (Fin m) ℝ × Matrix (Fin n) (Fin n) ℝ),
    (sad lstsq (mirrorSig 1 F) Oct.hull (some 1)).map (fun X => X.submatrix (Equiv.swap 2 3) id) = sad lstsq F Oct.hull (some 1) ∧
    (mad lstsq pinv (mirrorSig 1 F) Oct.hull (some 1)).map (fun X => X.submatrix (Equiv.swap 2 3) id) = mad lstsq pinv F Oct.hull (some 1) ∧
    (epad lstsq svd (mirrorSig 1 F) Oct.hull (some 1)).map (fun X => X.submatrix (Equiv.swap 2 3) id) = epad lstsq svd F Oct.hull (some 1) ∧
    mad lstsq pinv (mirrorSig 1 F) (turn (mirror 1) Oct.hull) (some 1) = mad lstsq pinv F Oct.hull (some 1) := by
  obtain ⟨lstsq, hl⟩ := exists_lstsq3
  choose P hP using fun (m n : ℕ) (A : Matrix (Fin m) (Fin n) ℝ) => exists_pinv A
  choose U V hUV using fun (m n : ℕ) (A : Matrix (Fin m) (Fin n) ℝ) => exists_svd A
  obtain ⟨h1, h2, h3⟩ := C143_symmetric (N := 1) 1 lstsq (fun {m n} A => P m n A) (fun A => hP _ _ A) (fun {m n} A => (U m n A, V m n A)) (fun A => hUV _ _ A) Oct.hull Oct.pts_ne
    (Equiv.swap 2 3) oct_mirror (some 1) (.inl rfl) F
  obtain ⟨-, h4, -⟩ := C143_decoders (N := 1) 1 lstsq hl (fun {m n} A => P m n A) (fun A => hP _ _ A) (fun {m n} A => (U m n A, V m n A)) (fun A => hUV _ _ A) Oct.hull Oct.pts_ne
    oct_centroids (some 1) (.inl rfl) F
  exact ⟨lstsq, fun {m n} A => P m n A, fun {m n} A => (U m n A, V m n A), h1, h2, h3 (by norm_num) oct_rank, h4⟩

/-- `C143_scene`: a source on the left and its mirror image, decoded on the octahedron at second order. -/
example (sig : Matrix (Fin 1) (Fin 3) ℝ) : ∃ lstsq : Mat3 → Mat3, (sad lstsq (srcToSh sig (fun _ => -1) (fun _ => 1) 2) Oct.hull (some 2)).map (fun X => X.submatrix (Equiv.swap 2 3) id)
    = sad lstsq (srcToSh sig (fun _ => 1) (fun _ => 1) 2) Oct.hull (some 2) := by
  obtain ⟨lstsq, -⟩ := exists_lstsq3
  choose P hP using fun (m n : ℕ) (A : Matrix (Fin m) (Fin n) ℝ) => exists_pinv A
  exact ⟨lstsq, (C143_scene (N := 2) 1 lstsq (fun {m n} A => P m n A) (fun A => hP _ _ A) Oct.hull Oct.pts_ne (Equiv.swap 2 3) oct_mirror sig (fun _ => 1) fun _ => 1).1⟩

/-- Responses for the directions left and right. -/
noncomputable def earHrirs : HRIRs where
  left := { cols := 2, rows := [[1, 0], [0, 0.25]] }
  right := { cols := 2, rows := [[0, 0.25], [1, 0]] }
  azi := [π / 2, -(π / 2)]
  zen := [π / 2, π / 2]
  fs := 48000
  numGrid := 2
  numSamples := 2

/-- Loudspeakers two metres to the left and to the right of the listener. -/
noncomputable def sideHull : Hull 2 := { pairHull with points := ![![0, 2, 0], ![0, -2, 0]], d := ![2, 2] }

theorem earHrirs_dirs (i : ℕ) (a z : ℝ) (h1 : earHrirs.azi[i]? = some a) (h2 : earHrirs.zen[i]? = some z) :
    i = 0 ∧ a = π / 2 ∧ z = π / 2 ∨ i = 1 ∧ a = -(π / 2) ∧ z = π / 2 := by
  match i, h1, h2 with
  | 0, h1, h2 => exact .inl ⟨rfl, (Option.some.inj h1).symm, (Option.some.inj h2).symm⟩
  | 1, h1, h2 => exact .inr ⟨rfl, (Option.some.inj h1).symm, (Option.some.inj h2).symm⟩

theorem earHrirs_symmetric : SymmetricHrirs earHrirs := by
  intro i a z h1 h2
  rcases earHrirs_dirs i a z h1 h2 with ⟨rfl, rfl, rfl⟩ | ⟨rfl, rfl, rfl⟩
  · refine ⟨1, -(π / 2), π / 2, rfl, rfl, ?_, rfl, rfl⟩
    exact mirror_dirVec 1 (π / 2) (π / 2)
  · refine ⟨0, π / 2, π / 2, rfl, rfl, ?_, rfl, rfl⟩
    have := mirror_dirVec 1 (-(π / 2)) (π / 2)
    simpa [mirrorDir] using this

/-- `C143_binauralize`: loudspeakers left and right, the listener looking straight ahead. -/
example (x : Matrix (Fin 2) (Fin 3) ℝ) : ∃ l r : List ℝ, binauralize sideHull x 48000 (0, 0) earHrirs = .ok (l, r) ∧
    binauralize sideHull (x.submatrix (Equiv.swap 0 1) id) 48000 (0, 0) earHrirs = .ok (r, l) := by
  have hp : ∀ l, sideHull.points l - sideHull.listener = sideHull.points l := fun l => by
    funext c; fin_cases l <;> fin_cases c <;> simp [sideHull, pairHull]
  have hz : ∀ y : ℝ, (cart2sph 0 y 0 false false).2.1 = π / 2 := fun y => by simp [cart2sph]
  have ha : (cart2sph 0 2 0 false false).1 = π / 2 := by
    show Complex.arg ⟨0, 2⟩ = _
    rw [show (⟨0, 2⟩ : ℂ) = ((2 : ℝ) : ℂ) * Complex.I by apply Complex.ext <;> simp, Complex.arg_real_mul _ (by norm_num), Complex.arg_I]
  have hb : (cart2sph 0 (-2) 0 false false).1 = -(π / 2) := by
    show Complex.arg ⟨0, -2⟩ = _
    rw [show (⟨0, -2⟩ : ℂ) = ((2 : ℝ) : ℂ) * -Complex.I by apply Complex.ext <;> simp, Complex.arg_real_mul _ (by norm_num), Complex.arg_neg_I]
  have h00 : haversine (π / 2) (π / 2) (π / 2) (π / 2) = 0 := by simp [haversine]
  have h11 : haversine (-(π / 2)) (π / 2) (-(π / 2)) (π / 2) = 0 := by simp [haversine]
  have key : ∀ a b : ℝ, dirVec a (π / 2) ⬝ᵥ dirVec b (π / 2) = -1 → haversine a (π / 2) b (π / 2) = π := fun a b h => by
    rw [haversine_arccos, h, arccos_neg_one]
  have h01 : haversine (π / 2) (π / 2) (-(π / 2)) (π / 2) = π := key _ _ (by simp [dirVec, dotProduct, Fin.sum_univ_three])
  have h10 : haversine (-(π / 2)) (π / 2) (π / 2) (π / 2) = π := key _ _ (by simp [dirVec, dotProduct, Fin.sum_univ_three])
  have := C143_binauralize sideHull (Equiv.swap 0 1) (fun l => by
      rw [hp, hp, mirror_apply]
      funext c
      fin_cases l <;> fin_cases c <;> simp [sideHull, Function.update]) (0, 0) earHrirs ⟨rfl, rfl, rfl, rfl, by simp [Sig.Arr2.WF, earHrirs], by simp [Sig.Arr2.WF, earHrirs], rfl, rfl⟩
    (by simp [earHrirs]) (by simp [earHrirs]) (by norm_num : 1 ≤ 3) earHrirs_symmetric (by
      intro l i j v hi hj
      obtain ⟨a, z, i1, i2, i3⟩ := hi
      obtain ⟨b, w, j1, j2, j3⟩ := hj
      rw [show v = sideHull.points l from hp l] at i3 j3
      have q0 := fun hh => i3 0 (π / 2) (π / 2) rfl hh
      have q1 := fun hh => i3 1 (-(π / 2)) (π / 2) rfl hh
      have p0 := fun hh => j3 0 (π / 2) (π / 2) rfl hh
      have p1 := fun hh => j3 1 (-(π / 2)) (π / 2) rfl hh
      replace q0 := q0 rfl
      replace q1 := q1 rfl
      replace p0 := p0 rfl
      replace p1 := p1 rfl
      have hpi := pi_pos
      match l with
      | 0 =>
        change haversine ((cart2sph 0 2 0 false false).1 - 0) ((cart2sph 0 2 0 false false).2.1 - 0) _ _ ≤ haversine ((cart2sph 0 2 0 false false).1 - 0) ((cart2sph 0 2 0 false false).2.1 - 0) _ _ at q0 q1 p0 p1
        rw [sub_zero, sub_zero, ha, hz] at q0 q1 p0 p1
        rcases earHrirs_dirs i a z i1 i2 with ⟨rfl, rfl, rfl⟩ | ⟨rfl, rfl, rfl⟩ <;> rcases earHrirs_dirs j b w j1 j2 with ⟨rfl, rfl, rfl⟩ | ⟨rfl, rfl, rfl⟩
        all_goals first | rfl | (exfalso; rw [h00, h01] at *; linarith)
      | 1 =>
        change haversine ((cart2sph 0 (-2) 0 false false).1 - 0) ((cart2sph 0 (-2) 0 false false).2.1 - 0) _ _ ≤ haversine ((cart2sph 0 (-2) 0 false false).1 - 0) ((cart2sph 0 (-2) 0 false false).2.1 - 0) _ _ at q0 q1 p0 p1
        rw [sub_zero, sub_zero, hb, hz] at q0 q1 p0 p1
        rcases earHrirs_dirs i a z i1 i2 with ⟨rfl, rfl, rfl⟩ | ⟨rfl, rfl, rfl⟩ <;> rcases earHrirs_dirs j b w j1 j2 with ⟨rfl, rfl, rfl⟩ | ⟨rfl, rfl, rfl⟩
        all_goals first | rfl | (exfalso; simp only [h11, h10] at q0 q1 p0 p1; linarith)) x
  simpa [earHrirs] using this

/-- `C143_mirrored` for the octahedron seen in the mirror between left and right. -/
example : ∃ lstsq : Mat3 → Mat3, LstsqSpec lstsq ∧
    (vbip lstsq 2 ([![1, 2, 3]].map (mirror 1).mulVec) none true (turnSetup (mirror 1) fiveSetup)).1 = (vbip lstsq 2 [![1, 2, 3]] none true fiveSetup).1 ∧
    popTriangles (turn (mirror 1) Oct.hull) (some 85) none none none = turn (mirror 1) (popTriangles Oct.hull (some 85) none none none) := by
  obtain ⟨lstsq, hl⟩ := exists_lstsq3
  obtain ⟨-, h2, -⟩ := C143_mirrored 1 lstsq hl 2 [![1, 2, 3]] none true fiveSetup fiveSetup.toHull (![1, 2, 3] : Vec3) (some 85) none none none
  obtain ⟨-, -, -, h4, -⟩ := C143_mirrored 1 lstsq hl 2 [![1, 2, 3]] none true ⟨Oct.hull, none, none⟩ Oct.hull (![1, 2, 3] : Vec3) (some 85) none none none
  exact ⟨lstsq, hl, h2, h4⟩

end Verif.Props
