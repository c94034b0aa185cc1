import Verif.Props.RotationGroup
import Verif.Props.Turned

/-!
C176: `utils.rotation_rodrigues` reaches every rotation, `utils.rotation_vecvec` is the smallest one.
-/

namespace Verif.Utils
open Real Matrix

/-- Specification: the angle by which a rotation turns. -/
noncomputable def turnAngle (R : Matrix (Fin 3) (Fin 3) ℝ) : ℝ := arccos ((R.trace - 1) / 2)

/-- Rodrigues' formula. -/
noncomputable def rodForm (k : Fin 3 → ℝ) (c s : ℝ) : Matrix (Fin 3) (Fin 3) ℝ := 1 + s • crossMat k + (1 - c) • (crossMat k * crossMat k)

theorem rodForm_trace (k : Fin 3 → ℝ) (hk : k ⬝ᵥ k = 1) (c s : ℝ) : (rodForm k c s).trace = 1 + 2 * c := by
  rw [rodForm, crossMat_sq k hk]
  simp only [dotProduct, Fin.sum_univ_three] at hk
  simp [Matrix.trace, Fin.sum_univ_three, crossMat, vecMulVec_apply]
  linear_combination (1 - c) * hk

theorem rodForm_mulVec (k : Fin 3 → ℝ) (hk : k ⬝ᵥ k = 1) (c s : ℝ) (f : Fin 3 → ℝ) :
    rodForm k c s *ᵥ f = c • f + s • (k ⨯₃ f) + ((1 - c) * (k ⬝ᵥ f)) • k := by
  rw [rodForm, crossMat_sq k hk, add_mulVec, add_mulVec, one_mulVec, smul_mulVec, smul_mulVec, sub_mulVec, one_mulVec,
      crossMat_mulVec, vecMulVec_mulVec]
  ext i
  simp
  ring

theorem rodForm_quad (k : Fin 3 → ℝ) (hk : k ⬝ᵥ k = 1) (c s : ℝ) (f : Fin 3 → ℝ) (hf : f ⬝ᵥ f = 1) :
    f ⬝ᵥ (rodForm k c s *ᵥ f) = c + (1 - c) * (k ⬝ᵥ f) ^ 2 := by
  have h0 : f ⬝ᵥ (k ⨯₃ f) = 0 := dot_cross_self k f
  rw [rodForm_mulVec k hk, dotProduct_add, dotProduct_add, dotProduct_smul, dotProduct_smul, dotProduct_smul, hf, h0, dotProduct_comm f k]
  simp only [smul_eq_mul]; ring

/-- Every rotation leaves some direction where it is. -/
theorem axis_exists (R : Matrix (Fin 3) (Fin 3) ℝ) (hR : IsRotation R) : ∃ k : Fin 3 → ℝ, k ⬝ᵥ k = 1 ∧ R *ᵥ k = k := by
  have h1 : (R - 1).det = 0 := by
    have e : R - 1 = R * (1 - Rᵀ) := by rw [Matrix.mul_sub, hR.2.1, Matrix.mul_one]
    have e1 : (R - 1).det = (1 - R).det := by
      rw [e, det_mul, hR.2.2, one_mul, ← det_transpose (1 - R), transpose_sub, transpose_one]
    have e2 : (1 - R).det = -(R - 1).det := by
      rw [← neg_sub R 1, det_neg]; norm_num
    linarith
  obtain ⟨v, hv, hv0⟩ := Matrix.exists_mulVec_eq_zero_iff.2 h1
  refine ⟨unit3 v, unit3_dot hv, ?_⟩
  have : R *ᵥ v = v := by
    rw [sub_mulVec, one_mulVec] at hv0
    exact sub_eq_zero.1 hv0
  rw [unit3, mulVec_smul, this]

/-- Some rotation takes the x axis to a given direction. -/
theorem frame_exists (k : Fin 3 → ℝ) (hk : k ⬝ᵥ k = 1) : ∃ S, IsRotation S ∧ S *ᵥ ![1, 0, 0] = k := by
  have hcol : k 0 ^ 2 + k 1 ^ 2 + k 2 ^ 2 = 1 := by
    simp only [dotProduct, Fin.sum_univ_three] at hk
    linarith
  obtain ⟨p, hp1, hp2⟩ := Verif.Props.circle_angle (√(k 0 ^ 2 + k 1 ^ 2)) (k 2) (by rw [Real.sq_sqrt (by positivity)]; exact hcol)
  obtain ⟨y, h0, h1⟩ : ∃ y, k 0 = cos p * cos y ∧ k 1 = -(cos p * sin y) := by
    by_cases hz : k 0 ^ 2 + k 1 ^ 2 = 0
    · have e0 : k 0 = 0 := by nlinarith [sq_nonneg (k 0), sq_nonneg (k 1)]
      have e1 : k 1 = 0 := by nlinarith [sq_nonneg (k 0), sq_nonneg (k 1)]
      rw [hz, Real.sqrt_zero] at hp1
      exact ⟨0, by rw [e0, ← hp1, zero_mul], by rw [e1, ← hp1, zero_mul, neg_zero]⟩
    · have hpos : 0 < √(k 0 ^ 2 + k 1 ^ 2) := Real.sqrt_pos.2 (lt_of_le_of_ne (by positivity) (Ne.symm hz))
      have hsq : √(k 0 ^ 2 + k 1 ^ 2) ^ 2 = k 0 ^ 2 + k 1 ^ 2 := Real.sq_sqrt (by positivity)
      obtain ⟨y, hy1, hy2⟩ := Verif.Props.circle_angle (k 0 / √(k 0 ^ 2 + k 1 ^ 2)) (-k 1 / √(k 0 ^ 2 + k 1 ^ 2)) (by
        rw [div_pow, div_pow, hsq, neg_sq, ← add_div, div_self hz])
      refine ⟨y, ?_, ?_⟩
      · rw [← hp1, ← hy1]; field_simp
      · rw [← hp1, ← hy2]; field_simp
  refine ⟨rotationEuler y p 0, C04_isRotation _ _ _, ?_⟩
  ext i
  fin_cases i <;> simp [rotationEuler, rotZ, rotY, rotX, mulVec, dotProduct, Fin.sum_univ_three, Matrix.mul_apply, h0, h1, hp2] <;> ring

/-- Every rotation is a rotation about an axis. -/
theorem axis_angle (R : Matrix (Fin 3) (Fin 3) ℝ) (hR : IsRotation R) : ∃ k : Fin 3 → ℝ, k ⬝ᵥ k = 1 ∧ ∃ t, R = rodForm k (cos t) (sin t) := by
  obtain ⟨k, hk, hRk⟩ := axis_exists R hR
  obtain ⟨S, hS, hSk⟩ := frame_exists k hk
  have hB : IsRotation (Sᵀ * R * S) := isRotation_mul (isRotation_mul ⟨by rw [transpose_transpose]; exact hS.2.1,
    by rw [transpose_transpose]; exact hS.1, by rw [det_transpose]; exact hS.2.2⟩ hR) hS
  have hx : (Sᵀ * R * S) *ᵥ ![1, 0, 0] = ![1, 0, 0] := by
    rw [← mulVec_mulVec, ← mulVec_mulVec, hSk, hRk, ← hSk, mulVec_mulVec, hS.1, one_mulVec]
  obtain ⟨roll, hroll⟩ := Verif.Props.fixes_x _ hB (by
    have := congrFun hx 0
    simpa [mulVec, dotProduct, Fin.sum_univ_three] using this)
  have hRS : R = S * rotX roll * Sᵀ := by
    rw [← hroll, Matrix.mul_assoc, Matrix.mul_assoc, Matrix.mul_assoc, hS.2.1, Matrix.mul_one, ← Matrix.mul_assoc, hS.2.1, Matrix.one_mul]
  refine ⟨k, hk, -roll, ?_⟩
  have hX : rotX roll = rodForm ![1, 0, 0] (cos (-roll)) (sin (-roll)) := by
    ext i j
    fin_cases i <;> fin_cases j <;> simp [rotX, rodForm, crossMat, Matrix.mul_apply, Fin.sum_univ_three]
  have hC : S * crossMat ![1, 0, 0] * Sᵀ = crossMat k := by
    have hfun : ∀ w, (S * crossMat ![1, 0, 0] * Sᵀ) *ᵥ w = crossMat k *ᵥ w := fun w => by
      rw [← mulVec_mulVec, ← mulVec_mulVec, crossMat_mulVec, crossMat_mulVec, ← Verif.Props.turn_cross hS.1 hS.2.2, hSk, mulVec_mulVec, hS.2.1, one_mulVec]
    ext i j
    have := congrFun (hfun (Pi.single j 1)) i
    simpa using this
  have hCC : S * (crossMat ![1, 0, 0] * crossMat ![1, 0, 0]) * Sᵀ = crossMat k * crossMat k := by
    rw [← hC]
    have : S * crossMat ![1, 0, 0] * Sᵀ * (S * crossMat ![1, 0, 0] * Sᵀ) = S * crossMat ![1, 0, 0] * (Sᵀ * S) * crossMat ![1, 0, 0] * Sᵀ := by
      simp only [Matrix.mul_assoc]
    rw [this, hS.1]
    simp only [Matrix.mul_assoc, Matrix.one_mul]
  rw [hRS, hX, rodForm, rodForm, Matrix.mul_add, Matrix.mul_add, Matrix.add_mul, Matrix.add_mul, Matrix.mul_one, hS.2.1, Matrix.mul_smul,
    Matrix.mul_smul, Matrix.smul_mul, Matrix.smul_mul, hC, hCC]

theorem rodForm_neg (k : Fin 3 → ℝ) (c s : ℝ) : rodForm (-k) c s = rodForm k c (-s) := by
  have : crossMat (-k) = -crossMat k := by
    ext i j; fin_cases i <;> fin_cases j <;> simp [crossMat]
  rw [rodForm, rodForm, this, neg_mul_neg, smul_neg, neg_smul]

/-- … with an angle from zero to `π`, which is the angle by which it turns. -/
theorem axis_angle_half (R : Matrix (Fin 3) (Fin 3) ℝ) (hR : IsRotation R) :
    ∃ k : Fin 3 → ℝ, k ⬝ᵥ k = 1 ∧ R = rodForm k (cos (turnAngle R)) (sin (turnAngle R)) := by
  obtain ⟨k, hk, t, ht⟩ := axis_angle R hR
  have htr : (R.trace - 1) / 2 = cos t := by rw [ht, rodForm_trace k hk]; ring
  have hc : cos (turnAngle R) = cos t := by
    rw [turnAngle, htr, cos_arccos (neg_one_le_cos t) (cos_le_one t)]
  have hs : sin (turnAngle R) = |sin t| := by
    rw [turnAngle, htr, sin_arccos, ← Real.sqrt_sq_eq_abs]
    congr 1
    linarith [sin_sq_add_cos_sq t]
  rcases le_total 0 (sin t) with h | h
  · exact ⟨k, hk, by rw [hc, hs, abs_of_nonneg h]; exact ht⟩
  · refine ⟨-k, by simpa using hk, ?_⟩
    rw [hc, hs, abs_of_nonpos h, rodForm_neg, neg_neg]; exact ht

theorem rodrigues_unit (k : Fin 3 → ℝ) (hk : k ⬝ᵥ k = 1) (t : ℝ) (ht : 10e-10 < t) :
    rotationRodrigues [k 0, k 1, k 2] t = .ok (rodForm k (cos t) (sin t)) := by
  have hv : ![k 0, k 1, k 2] = k := by ext i; fin_cases i <;> rfl
  have hn : norm3 k = 1 := by
    have h := norm3_sq k
    rw [hk] at h
    have : 0 ≤ norm3 k := Real.sqrt_nonneg _
    nlinarith
  simp only [rotationRodrigues]
  rw [if_pos ht, hv, hn, inv_one, one_smul]
  rfl

/-- C176: every rotation is `rotation_rodrigues(k, theta)` for some axis and some angle between `π` and `3π`; a rotation that turns by more than
the threshold `10e-10` also for some axis and that angle, which is at most `π`. -/
theorem C176_reached (R : Matrix (Fin 3) (Fin 3) ℝ) (hR : IsRotation R) :
    (∃ (a b c theta : ℝ), ![a, b, c] ≠ 0 ∧ theta ∈ Set.Ioc π (3 * π) ∧ rotationRodrigues [a, b, c] theta = .ok R) ∧
      (10e-10 < turnAngle R → ∃ a b c : ℝ, ![a, b, c] ≠ 0 ∧ rotationRodrigues [a, b, c] (turnAngle R) = .ok R) := by
  have hne : ∀ k : Fin 3 → ℝ, k ⬝ᵥ k = 1 → ![k 0, k 1, k 2] ≠ 0 := fun k hk h => by
    have hv : ![k 0, k 1, k 2] = k := by ext i; fin_cases i <;> rfl
    rw [hv] at h
    rw [h] at hk
    simp at hk
  constructor
  · obtain ⟨k, hk, t, ht⟩ := axis_angle R hR
    have hm := toIocMod_mem_Ioc two_pi_pos π t
    have e : toIocMod two_pi_pos π t = t - toIocDiv two_pi_pos π t * (2 * π) := by
      rw [toIocMod, zsmul_eq_mul]
    refine ⟨k 0, k 1, k 2, toIocMod two_pi_pos π t, hne k hk, ⟨hm.1, hm.2.trans_eq (by ring)⟩, ?_⟩
    rw [rodrigues_unit k hk _ (lt_trans (lt_trans (by norm_num) pi_gt_three) hm.1), e, cos_sub_int_mul_two_pi, sin_sub_int_mul_two_pi, ← ht]
  · intro h
    obtain ⟨k, hk, hkR⟩ := axis_angle_half R hR
    exact ⟨k 0, k 1, k 2, hne k hk, by rw [rodrigues_unit k hk _ h, ← hkR]⟩

/-- The turn by a right angle about the z axis, and the identity, can be asked for. -/
example : IsRotation (rotZ (π / 2)) ∧ IsRotation 1 := ⟨isRotation_rotZ _, by simp [IsRotation]⟩

/-- … the former turns by more than the threshold. -/
example : 10e-10 < turnAngle (rotZ (π / 2)) := by
  have : (rotZ (π / 2)).trace = 1 := by simp [rotZ, Matrix.trace, Fin.sum_univ_three]
  rw [turnAngle, this, sub_self, zero_div, arccos_zero]
  linarith [pi_gt_three]

/-- C176: where `rotation_vecvec(f, t)` rotates at all (C06), it turns by the angle between the vectors; every rotation that takes the direction
of `f` to that of `t` turns at least as far, and only this one no further. -/
theorem C176_smallest (f0 f1 f2 t0 t1 t2 : ℝ) (hf : ![f0, f1, f2] ≠ 0) (ht : ![t0, t1, t2] ≠ 0)
    (hk : 10e-15 ≤ norm3 (unit3 ![f0, f1, f2] ⨯₃ unit3 ![t0, t1, t2]))
    (hang : 10e-10 < arccos (unit3 ![f0, f1, f2] ⬝ᵥ unit3 ![t0, t1, t2])) :
    ∃ R, rotationVecvec [f0, f1, f2] [t0, t1, t2] = .ok R ∧ turnAngle R = arccos (unit3 ![f0, f1, f2] ⬝ᵥ unit3 ![t0, t1, t2]) ∧
      ∀ R', IsRotation R' → R' *ᵥ unit3 ![f0, f1, f2] = unit3 ![t0, t1, t2] → turnAngle R ≤ turnAngle R' ∧ (turnAngle R' = turnAngle R → R' = R) := by
  have hf1 := unit3_dot hf
  have ht1 := unit3_dot ht
  obtain ⟨f, hfd⟩ : ∃ f, f = unit3 ![f0, f1, f2] := ⟨_, rfl⟩
  obtain ⟨t, htd⟩ : ∃ t, t = unit3 ![t0, t1, t2] := ⟨_, rfl⟩
  obtain ⟨k, hkd⟩ : ∃ k, k = unit3 (f ⨯₃ t) := ⟨_, rfl⟩
  have hfd' : f = (norm3 ![f0, f1, f2])⁻¹ • ![f0, f1, f2] := hfd
  have htd' : t = (norm3 ![t0, t1, t2])⁻¹ • ![t0, t1, t2] := htd
  rw [← hfd, ← htd] at hk hang
  rw [← hfd] at hf1
  rw [← htd] at ht1
  have hkpos : 0 < norm3 (f ⨯₃ t) := lt_of_lt_of_le (by norm_num) hk
  have hkne : f ⨯₃ t ≠ 0 := by
    intro h; rw [h] at hkpos; simp [norm3] at hkpos
  have hkk : k ⬝ᵥ k = 1 := hkd ▸ unit3_dot hkne
  have hksq : norm3 (f ⨯₃ t) ^ 2 = 1 - (f ⬝ᵥ t) ^ 2 := by
    rw [norm3_sq, cross_dot_cross, hf1, ht1, dotProduct_comm t f]; ring
  have hlt : (f ⬝ᵥ t) ^ 2 < 1 := by nlinarith
  have hb := abs_lt.1 ((sq_lt_one_iff_abs_lt_one _).1 hlt)
  have hvv : rotationVecvec [f0, f1, f2] [t0, t1, t2] = .ok (rodForm k (cos (arccos (f ⬝ᵥ t))) (sin (arccos (f ⬝ᵥ t)))) := by
    simp only [rotationVecvec]
    rw [← hfd', ← htd', if_neg (not_lt.2 hk)]
    have hv : ![(f ⨯₃ t) 0, (f ⨯₃ t) 1, (f ⨯₃ t) 2] = f ⨯₃ t := by ext i; fin_cases i <;> rfl
    simp only [rotationRodrigues]
    rw [if_pos hang, hv, hkd]
    rfl
  rw [cos_arccos hb.1.le hb.2.le, sin_arccos, ← hksq, Real.sqrt_sq hkpos.le] at hvv
  have hangR : turnAngle (rodForm k (f ⬝ᵥ t) (norm3 (f ⨯₃ t))) = arccos (f ⬝ᵥ t) := by
    rw [turnAngle, rodForm_trace k hkk]; congr 1; ring
  refine ⟨_, hvv, by rw [← hfd, ← htd, hangR], fun R' hR' hmap => ?_⟩
  rw [← hfd, ← htd] at hmap
  obtain ⟨k', hk', e⟩ := axis_angle_half R' hR'
  have hq := rodForm_quad k' hk' (cos (turnAngle R')) (sin (turnAngle R')) f hf1
  rw [← e, hmap] at hq
  rw [hangR]
  have h0 : 0 ≤ turnAngle R' := arccos_nonneg _
  have hpi : turnAngle R' ≤ π := arccos_le_pi _
  refine ⟨?_, fun heq => ?_⟩
  · rw [← arccos_cos h0 hpi]
    refine arccos_le_arccos ?_
    rw [hq]
    nlinarith [cos_le_one (turnAngle R'), sq_nonneg (k' ⬝ᵥ f)]
  · rw [heq, cos_arccos hb.1.le hb.2.le] at hq
    have hkf : k' ⬝ᵥ f = 0 := by
      have : (1 - f ⬝ᵥ t) * (k' ⬝ᵥ f) ^ 2 = 0 := by linarith
      rcases mul_eq_zero.1 this with h | h
      · linarith [hb.2]
      · exact pow_eq_zero_iff (two_ne_zero) |>.1 h
    rw [heq, cos_arccos hb.1.le hb.2.le, sin_arccos, ← hksq, Real.sqrt_sq hkpos.le] at e
    have hmap' := hmap
    rw [e, rodForm_mulVec k' hk', hkf, mul_zero, zero_smul, add_zero] at hmap'
    have hcr : f ⨯₃ t = norm3 (f ⨯₃ t) • k' := by
      conv_lhs => rw [← hmap']
      rw [LinearMap.map_add, LinearMap.map_smul, LinearMap.map_smul, cross_self, smul_zero, zero_add]
      congr 1
      simp only [dotProduct, Fin.sum_univ_three] at hf1 hkf
      ext i
      fin_cases i <;> simp [cross_apply]
      · linear_combination (k' 0) * hf1 - (f 0) * hkf
      · linear_combination (k' 1) * hf1 - (f 1) * hkf
      · linear_combination (k' 2) * hf1 - (f 2) * hkf
    have hkk' : k' = k := by
      rw [hkd, unit3]
      conv_rhs => rw [hcr]
      rw [smul_smul, ← hcr, inv_mul_cancel₀ hkpos.ne', one_smul]
    rw [e, hkk']

/-- From the x to the y axis: the hypotheses are met, and no rotation taking one to the other turns by less than a right angle. -/
example (R : Matrix (Fin 3) (Fin 3) ℝ) (hR : IsRotation R) (hm : R *ᵥ ![1, 0, 0] = ![0, 1, 0]) : π / 2 ≤ turnAngle R := by
  have n1 : norm3 ![(1 : ℝ), 0, 0] = 1 := by simp [norm3]
  have n2 : norm3 ![(0 : ℝ), 1, 0] = 1 := by simp [norm3]
  have u1 : unit3 ![(1 : ℝ), 0, 0] = ![1, 0, 0] := by rw [unit3, n1, inv_one, one_smul]
  have u2 : unit3 ![(0 : ℝ), 1, 0] = ![0, 1, 0] := by rw [unit3, n2, inv_one, one_smul]
  obtain ⟨R', -, h2, h3⟩ := C176_smallest 1 0 0 0 1 0 (fun h => by have := congrFun h 0; simp at this) (fun h => by have := congrFun h 1; simp at this)
    (by rw [u1, u2]; simp [cross_apply, norm3]; norm_num) (by
      rw [u1, u2]; simp
      exact lt_trans (by norm_num) (div_lt_div_of_pos_right pi_gt_three two_pos))
  have h4 := (h3 R hR (by rw [u1, u2]; exact hm)).1
  rw [h2, u1, u2] at h4
  simpa using h4

end Verif.Utils
