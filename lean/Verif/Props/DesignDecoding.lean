import Verif.Props.EnergyVector
import Verif.Props.AmbiDecoders

/-!
C112 (Ambisonic decoding on a design layout: the energy vector of the loudspeaker signals points at the source).
-/

namespace Verif.Props
open Real Verif.Sph Verif.Utils Verif.Decoder

/-- A source encoded with `src_to_sh`, its channels of order `n` multiplied with `w n`. -/
noncomputable def weightedSource {S : ℕ} (N : ℕ) (w : ℕ → ℝ) (sig : Fin S → ℝ) (azi zen : ℝ) : Matrix (Fin ((N + 1) ^ 2)) (Fin S) ℝ :=
  fun q t => repVec N w q * srcToSh (fun _ : Fin 1 => sig) (fun _ => azi) (fun _ => zen) N q t

theorem weightedSource_apply {S : ℕ} (N : ℕ) (w : ℕ → ℝ) (sig : Fin S → ℝ) (azi zen : ℝ) (q : Fin ((N + 1) ^ 2)) (t : Fin S) :
    weightedSource N w sig azi zen q t = repVec N w q * (shVec N azi zen q * sig t) := by
  unfold weightedSource
  congr 1
  refine (Matrix.mul_apply).trans ?_
  rw [Fin.sum_univ_one]; rfl

theorem unit_dir {v : Vec3} (hv : ∑ c, v c ^ 2 = 1) : dirVec (dirOf v).1 (dirOf v).2 = v := by
  have h0 : v ≠ 0 := by rintro rfl; simp at hv
  rw [dirVec_dirOf v h0]
  have : norm3 v = 1 := by
    unfold norm3
    rw [show v ⬝ᵥ v = ∑ c, v c ^ 2 from Finset.sum_congr rfl fun c _ => (sq (v c)).symm, hv, Real.sqrt_one]
  rw [this]; simp

/-- The decoded signals are the sampled pattern. -/
theorem shAt_weightedSource {L S N : ℕ} (h : Hull L) (w : ℕ → ℝ) (sig : Fin S → ℝ) (azi zen : ℝ) (k : ℝ) (l : Fin L) (t : Fin S) :
    ((k • shAt N h.points) * (weightedSource N w sig azi zen).submatrix (Fin.castLE le_rfl) id) l t
      = k * sig t * ∑ q, shVec N (dirOf (h.points l)).1 (dirOf (h.points l)).2 q * repVec N w q * shVec N azi zen q := by
  rw [Matrix.mul_apply, Finset.mul_sum]
  refine Finset.sum_congr rfl fun q _ => ?_
  rw [Matrix.smul_apply, Matrix.submatrix_apply, smul_eq_mul]
  have : weightedSource N w sig azi zen (Fin.castLE le_rfl q) (id t) = repVec N w q * (shVec N azi zen q * sig t) :=
    weightedSource_apply N w sig azi zen q t
  rw [this]
  show k * shVec N _ _ q * _ = _
  ring

theorem rE_source {L S N t : ℕ} (h : Hull L) (hu : ∀ l, ∑ c, h.points l c ^ 2 = 1)
    (hd : IsTDesign t (fun l => (dirOf (h.points l)).1) (fun l => (dirOf (h.points l)).2)) (ht : 2 * N + 1 ≤ t) (w : ℕ → ℝ) (j : ℕ) (hj : j ≤ N)
    (hw : w j ≠ 0) (sig : Fin S → ℝ) (azi zen : ℝ) (hz : zen ∈ Set.Icc 0 π) (s : Fin S) (hs : sig s ≠ 0) (k : ℝ) (hk : k ≠ 0) :
    rE h.points (fun l => ((k • shAt N h.points) * (weightedSource N w sig azi zen).submatrix (Fin.castLE le_rfl) id) l s)
      = (some fun c => rENum N w / rEDen N w * dirVec azi zen c, |rENum N w / rEDen N w|) := by
  simp only [shAt_weightedSource]
  rw [C26_scale _ _ _ (mul_ne_zero hk hs)]
  have := C110_direction hd ht w j hj hw azi zen hz
    (fun l => ∑ q, shVec N (dirOf (h.points l)).1 (dirOf (h.points l)).2 q * repVec N w q * shVec N azi zen q)
    (fun l => C18_kernel N w _ _ _ _ (hd.zenith l) hz)
  rw [← this]
  congr 1
  funext l
  exact (unit_dir (hu l)).symm

/-- On a design the right factors of the singular value decomposition reproduce the matrix itself. -/
theorem svd_design {m n : ℕ} (hmn : n ≤ m) (A U : Matrix _ _ ℝ) (V : Matrix (Fin n) (Fin n) ℝ) (h : IsSvd (m := m) (n := n) A U V) (g : ℝ)
    (hA : A.transpose * A = g • 1) : √g • (U * npEye m n * V) = A := by
  obtain ⟨σ, hσ, hAe, hpos⟩ := h.diag
  have hV : V * V.transpose = 1 := mul_eq_one_comm.1 h.vh
  have hss : σ.transpose * σ = g • 1 := by
    have e : σ.transpose * σ = V * (A.transpose * A) * V.transpose := by
      rw [hAe]
      simp only [Matrix.transpose_mul]
      calc σ.transpose * σ = (V * V.transpose) * σ.transpose * (U.transpose * U) * σ * (V * V.transpose) := by rw [hV, h.u]; simp
        _ = _ := by simp only [Matrix.mul_assoc]
    rw [e, hA, Matrix.mul_smul, Matrix.mul_one, Matrix.smul_mul, hV]
  have hσe : σ = √g • npEye m n := by
    ext i j
    rw [Matrix.smul_apply, npEye, smul_eq_mul]
    by_cases hij : (i : ℕ) = j
    · have hi : i = Fin.castLE hmn j := Fin.ext hij
      subst hi
      rw [if_pos hij, mul_one]
      have := congrFun (congrFun hss j) j
      rw [Matrix.mul_apply, Finset.sum_eq_single (Fin.castLE hmn j) (fun b _ hb => by
        rw [hσ b j (fun h => hb (Fin.ext h)), mul_zero]) (by simp), Matrix.transpose_apply, Matrix.smul_apply, Matrix.one_apply_eq, smul_eq_mul, mul_one] at this
      rw [← this, Real.sqrt_mul_self (hpos _ _)]
    · rw [hσ i j hij, if_neg hij, mul_zero]
  rw [hAe, hσe, Matrix.mul_smul, Matrix.smul_mul]

theorem design_points_le {Q N t : ℕ} {azi zen : Fin Q → ℝ} (hd : IsTDesign t azi zen) (h : 2 * N ≤ t) : (N + 1) ^ 2 ≤ Q := by
  have := (design_rank hd h).fintype_card_le_finrank
  simpa using this

/-! ### C112 -/

/-- **C112** On loudspeakers that form a design of strength `2N+1` (on the unit sphere), `sad`, `mad` and `epad` of an encoded source whose channels were
weighted per order give loudspeaker signals whose energy vector, at every sample that is not silent, points exactly at the source; its length is that
of `C110_direction`. -/
theorem C112_weighted {L S N t : ℕ} (lstsq : Mat3 → Mat3) (pinv : {m n : ℕ} → Matrix (Fin m) (Fin n) ℝ → Matrix (Fin n) (Fin m) ℝ)
    (hpinv : ∀ {m n : ℕ} (A : Matrix (Fin m) (Fin n) ℝ), IsPinv A (pinv A))
    (svd : {m n : ℕ} → Matrix (Fin m) (Fin n) ℝ → Matrix (Fin m) (Fin m) ℝ × Matrix (Fin n) (Fin n) ℝ)
    (hsvd : ∀ {m n : ℕ} (A : Matrix (Fin m) (Fin n) ℝ), IsSvd A (svd A).1 (svd A).2)
    (h : Hull L) (hu : ∀ l, ∑ c, h.points l c ^ 2 = 1)
    (hd : IsTDesign t (fun l => (dirOf (h.points l)).1) (fun l => (dirOf (h.points l)).2)) (ht : 2 * N + 1 ≤ t) (w : ℕ → ℝ) (j : ℕ) (hj : j ≤ N)
    (hw : w j ≠ 0) (sig : Fin S → ℝ) (azi zen : ℝ) (hz : zen ∈ Set.Icc 0 π) :
    ∃ o₁ o₂ o₃, sad lstsq (weightedSource N w sig azi zen) h (some N) = .ok o₁ ∧ mad lstsq pinv (weightedSource N w sig azi zen) h (some N) = .ok o₂ ∧
      epad lstsq svd (weightedSource N w sig azi zen) h (some N) = .ok o₃ ∧ ∀ s, sig s ≠ 0 → ∀ o ∈ [o₁, o₂, o₃],
        rE h.points (fun l => o l s) = (some fun c => rENum N w / rEDen N w * dirVec azi zen c, |rENum N w / rEDen N w|) := by
  have hL : (0 : ℝ) < L := by exact_mod_cast hd.pos
  have hpi := pi_pos
  have hN : (0 : ℝ) < (N : ℝ) + 1 := by positivity
  have hsad := sad_eq lstsq (weightedSource N w sig azi zen) h (some N) N rfl
  rw [applyTruncated_ok _ _ le_rfl, smul_smul] at hsad
  have hmad : mad lstsq pinv (weightedSource N w sig azi zen) h (some N) = _ :=
    (C43_sad_eq_mad lstsq pinv hpinv (weightedSource N w sig azi zen) h (some N) N rfl hd (by omega)).symm.trans hsad
  have hK : (N + 1) ^ 2 ≤ L := design_points_le hd (by omega)
  have hgram : (shAt N h.points).transpose * shAt N h.points = ((L : ℝ) / (4 * π)) • 1 := design_gram hd (by omega)
  have hep := epad_eq lstsq svd (weightedSource N w sig azi zen) h (some N) N rfl
  have hD : (svd (shAt N h.points)).1 * npEye L ((N + 1) ^ 2) * (svd (shAt N h.points)).2 = (√((L : ℝ) / (4 * π)))⁻¹ • shAt N h.points := by
    have := congrArg (fun M => (√((L : ℝ) / (4 * π)))⁻¹ • M) (svd_design hK _ _ _ (hsvd (shAt N h.points)) _ hgram)
    simp only [smul_smul] at this
    rw [inv_mul_cancel₀ (by positivity), one_smul] at this
    exact this
  rw [applyTruncated_ok _ _ le_rfl, hD, smul_smul, smul_smul] at hep
  refine ⟨_, _, _, hsad, hmad, hep, fun s hs o ho => ?_⟩
  simp only [List.mem_cons, List.not_mem_nil, or_false] at ho
  rcases ho with rfl | rfl | rfl
  · exact rE_source h hu hd ht w j hj hw sig azi zen hz s hs _ (by positivity)
  · exact rE_source h hu hd ht w j hj hw sig azi zen hz s hs _ (by positivity)
  · exact rE_source h hu hd ht w j hj hw sig azi zen hz s hs _ (by positivity)

/-- The length for an unweighted source. -/
theorem rE_basic (N : ℕ) : rENum N (fun _ => 1) / rEDen N (fun _ => 1) = N / (N + 1) := by
  have h1 : rENum N (fun _ => 1) = N * (N + 1) := by
    unfold rENum
    induction N with
    | zero => simp
    | succ N ih => rw [Finset.sum_range_succ, ih]; push_cast; ring
  have h2 : rEDen N (fun _ => 1) = ((N : ℝ) + 1) ^ 2 := by
    unfold rEDen
    have := sum_odd (N + 1)
    push_cast at this
    rw [← this]
    exact Finset.sum_congr rfl fun n _ => by ring
  rw [h1, h2]
  have : (N : ℝ) + 1 ≠ 0 := by positivity
  field_simp

/-- **C112** Without weights the energy vector of the decoded source points at the source and has length `N/(N+1)`, for every source direction. -/
theorem C112_basic {L S N t : ℕ} (lstsq : Mat3 → Mat3) (h : Hull L) (hu : ∀ l, ∑ c, h.points l c ^ 2 = 1)
    (hd : IsTDesign t (fun l => (dirOf (h.points l)).1) (fun l => (dirOf (h.points l)).2)) (ht : 2 * N + 1 ≤ t)
    (sig : Fin S → ℝ) (azi zen : ℝ) (hz : zen ∈ Set.Icc 0 π) :
    ∃ o, sad lstsq (srcToSh (fun _ : Fin 1 => sig) (fun _ => azi) (fun _ => zen) N) h (some N) = .ok o ∧ ∀ s, sig s ≠ 0 →
      rE h.points (fun l => o l s) = (some fun c => N / (N + 1) * dirVec azi zen c, (N : ℝ) / (N + 1)) := by
  choose P hP using fun (m n : ℕ) (A : Matrix (Fin m) (Fin n) ℝ) => exists_pinv A
  choose U V hUV using fun (m n : ℕ) (A : Matrix (Fin m) (Fin n) ℝ) => exists_svd A
  obtain ⟨o, _, _, ho, _, _, hr⟩ := C112_weighted lstsq (fun {m n} A => P m n A) (fun A => hP _ _ A) (fun {m n} A => (U m n A, V m n A)) (fun A => hUV _ _ A)
    h hu hd ht (fun _ => 1) 0 (Nat.zero_le _) one_ne_zero sig azi zen hz
  have hw : weightedSource N (fun _ => 1) sig azi zen = srcToSh (fun _ : Fin 1 => sig) (fun _ => azi) (fun _ => zen) N := by
    funext q t
    simp [weightedSource, repVec]
  rw [hw] at ho
  refine ⟨o, ho, fun s hs => ?_⟩
  rw [hr s hs o (by simp), rE_basic, abs_of_nonneg (by positivity)]

/-- **C112** Rotating the encoded sound field with `rotate_sh` (which takes the channels along the last axis) before decoding turns the energy vector by the
rotation matrix. -/
theorem C112_rotated {L S N t : ℕ} (lstsq : Mat3 → Mat3) (h : Hull L) (hu : ∀ l, ∑ c, h.points l c ^ 2 = 1)
    (hd : IsTDesign t (fun l => (dirOf (h.points l)).1) (fun l => (dirOf (h.points l)).2)) (hN : 1 ≤ N) (ht : 2 * N + 1 ≤ t)
    (sig : Fin S → ℝ) (azi zen yaw pitch roll : ℝ) (hz : zen ∈ Set.Icc 0 π) :
    ∃ (F : Matrix (Fin S) (Fin ((N + 1) ^ 2)) ℝ) (o : Matrix (Fin L) (Fin S) ℝ),
      rotateSh ⟨S, (N + 1) ^ 2, (srcToSh (fun _ : Fin 1 => sig) (fun _ => azi) (fun _ => zen) N).transpose⟩ yaw pitch roll .real = .ok ⟨S, (N + 1) ^ 2, F⟩ ∧
      sad lstsq F.transpose h (some N) = .ok o ∧ ∀ s, sig s ≠ 0 →
        rE h.points (fun l => o l s)
          = (some fun c => N / (N + 1) * (rotationEuler yaw pitch roll).mulVec (dirVec azi zen) c, (N : ℝ) / (N + 1)) := by
  set v := (rotationEuler yaw pitch roll).mulVec (dirVec azi zen) with hv
  have hvu : ∑ c, v c ^ 2 = 1 := by
    have : v ⬝ᵥ v = 1 := by rw [hv, C04_dot, dir_self]
    rw [← this]
    exact Finset.sum_congr rfl fun c _ => sq (v c)
  have hdir := unit_dir hvu
  have hs : ∀ a z : ℝ, (srcToSh (fun _ : Fin 1 => sig) (fun _ => a) (fun _ => z) N).transpose = fun i q => sig i * shVec N a z q := by
    intro a z
    funext i q
    rw [Matrix.transpose_apply]
    refine (Matrix.mul_apply).trans ?_
    rw [Fin.sum_univ_one, mul_comm]; rfl
  have hrot := C19_rotateSh N S hN yaw pitch roll sig (fun _ => azi) (fun _ => zen) (fun _ => (dirOf v).1) (fun _ => (dirOf v).2) (fun _ => hz)
    (fun _ => dirOf_zenith v) (fun _ => hdir)
  obtain ⟨o, ho, hr⟩ := C112_basic lstsq h hu hd ht sig (dirOf v).1 (dirOf v).2 (dirOf_zenith v)
  refine ⟨(srcToSh (fun _ : Fin 1 => sig) (fun _ => (dirOf v).1) (fun _ => (dirOf v).2) N).transpose, o, ?_, ?_, fun s hs' => ?_⟩
  · rw [hs, hs]; exact hrot
  · rw [Matrix.transpose_transpose]; exact ho
  · rw [hr s hs', hdir]

/-- The eight corners of a cube at first order. -/
example : ∃ (h : Hull 8) (o : Matrix (Fin 8) (Fin 1) ℝ), sad id (srcToSh (fun _ : Fin 1 => fun _ : Fin 1 => 3) (fun _ => 1) (fun _ => 1) 1) h (some 1) = .ok o ∧
    (rE h.points (fun l => o l 0)).2 = 1 / 2 := by
  obtain ⟨azi, zen, hd⟩ := cube_design
  set h : Hull 8 := { points := fun l => dirVec (azi l) (zen l), listener := 0, d := 1, a := 1, simplices := [], centroids := [], faceAreas := [], faceNormals := [], barycenter := 0, encloses := [], valid := [], invBase := none, charOrder := none }
  obtain ⟨o, ho, hr⟩ := C112_basic (N := 1) id h (fun l => by
    have := dir_self (azi l) (zen l)
    rw [← this]; exact Finset.sum_congr rfl fun c _ => sq _) (design_points hd) (by norm_num) (fun _ : Fin 1 => 3) 1 1
    ⟨zero_le_one, by have := pi_gt_three; linarith⟩
  refine ⟨h, o, ho, ?_⟩
  rw [hr 0 (by norm_num)]
  norm_num

/-- `C112_weighted`: the hypotheses are met by the cube at first order with the weights 1, 1/2. -/
example (svd : {m n : ℕ} → Matrix (Fin m) (Fin n) ℝ → Matrix (Fin m) (Fin m) ℝ × Matrix (Fin n) (Fin n) ℝ)
    (hsvd : ∀ {m n : ℕ} (A : Matrix (Fin m) (Fin n) ℝ), IsSvd A (svd A).1 (svd A).2) :
    ∃ (h : Hull 8) (o : _), epad id svd (weightedSource 1 (fun n => 1 / (n + 1)) (fun _ : Fin 1 => 3) 1 1) h (some 1) = .ok o ∧
    (rE h.points (fun l => o l 0)).2 = 4 / 7 := by
  obtain ⟨azi, zen, hd⟩ := cube_design
  choose P hP using fun (m n : ℕ) (A : Matrix (Fin m) (Fin n) ℝ) => exists_pinv A
  set h : Hull 8 := { points := fun l => dirVec (azi l) (zen l), listener := 0, d := 1, a := 1, simplices := [], centroids := [], faceAreas := [], faceNormals := [], barycenter := 0, encloses := [], valid := [], invBase := none, charOrder := none }
  obtain ⟨o₁, o₂, o₃, -, -, h3, hr⟩ := C112_weighted (N := 1) id (fun {m n} A => P m n A) (fun A => hP _ _ A) svd hsvd h (fun l => by
    have := dir_self (azi l) (zen l)
    rw [← this]; exact Finset.sum_congr rfl fun c _ => sq _) (design_points hd) (by norm_num) (fun n => 1 / (n + 1)) 0 (by norm_num) (by norm_num)
    (fun _ : Fin 1 => 3) 1 1 ⟨zero_le_one, by have := pi_gt_three; linarith⟩
  refine ⟨h, o₃, h3, ?_⟩
  rw [hr 0 (by norm_num) o₃ (by simp)]
  norm_num [rENum, rEDen, Finset.sum_range_succ]

end Verif.Props
