import Verif.Proofs.Utils
import Mathlib.LinearAlgebra.UnitaryGroup
import Mathlib.Analysis.Real.Pi.Bounds
import Mathlib.LinearAlgebra.Matrix.DotProduct
import Mathlib.Analysis.SpecialFunctions.Trigonometric.Bounds

/-! C04, C05, C06: 3×3 rotation matrices. -/

namespace Verif.Utils
open Real Matrix

/-- Specification: a proper rotation of space. -/
def IsRotation (R : Matrix (Fin 3) (Fin 3) ℝ) : Prop := Rᵀ * R = 1 ∧ R * Rᵀ = 1 ∧ R.det = 1

theorem isRotation_mul {A B : Matrix (Fin 3) (Fin 3) ℝ} (hA : IsRotation A) (hB : IsRotation B) :
    IsRotation (A * B) := by
  refine ⟨?_, ?_, ?_⟩
  · rw [transpose_mul, Matrix.mul_assoc, ← Matrix.mul_assoc Aᵀ, hA.1, Matrix.one_mul, hB.1]
  · rw [transpose_mul, Matrix.mul_assoc, ← Matrix.mul_assoc B, hB.2.1, Matrix.one_mul, hA.2.1]
  · rw [det_mul, hA.2.2, hB.2.2, one_mul]

theorem isRotation_rotX (t : ℝ) : IsRotation (rotX t) := by
  have h := sin_sq_add_cos_sq t
  refine ⟨?_, ?_, ?_⟩
  · ext i j; fin_cases i <;> fin_cases j <;> simp [rotX, Matrix.mul_apply, Fin.sum_univ_three] <;> nlinarith
  · ext i j; fin_cases i <;> fin_cases j <;> simp [rotX, Matrix.mul_apply, Fin.sum_univ_three] <;> nlinarith
  · simp [rotX, det_fin_three]; nlinarith

theorem isRotation_rotY (t : ℝ) : IsRotation (rotY t) := by
  have h := sin_sq_add_cos_sq t
  refine ⟨?_, ?_, ?_⟩
  · ext i j; fin_cases i <;> fin_cases j <;> simp [rotY, Matrix.mul_apply, Fin.sum_univ_three] <;> nlinarith
  · ext i j; fin_cases i <;> fin_cases j <;> simp [rotY, Matrix.mul_apply, Fin.sum_univ_three] <;> nlinarith
  · simp [rotY, det_fin_three]; nlinarith

theorem isRotation_rotZ (t : ℝ) : IsRotation (rotZ t) := by
  have h := sin_sq_add_cos_sq t
  refine ⟨?_, ?_, ?_⟩
  · ext i j; fin_cases i <;> fin_cases j <;> simp [rotZ, Matrix.mul_apply, Fin.sum_univ_three] <;> nlinarith
  · ext i j; fin_cases i <;> fin_cases j <;> simp [rotZ, Matrix.mul_apply, Fin.sum_univ_three] <;> nlinarith
  · simp [rotZ, det_fin_three]; nlinarith

/-- C04: `rotation_euler` is a proper rotation for all angles. -/
theorem C04_isRotation (yaw pitch roll : ℝ) : IsRotation (rotationEuler yaw pitch roll) :=
  isRotation_mul (isRotation_mul (isRotation_rotZ _) (isRotation_rotY _)) (isRotation_rotX _)

/-- C04: it preserves dot products (hence lengths and angles). -/
theorem C04_dot (yaw pitch roll : ℝ) (v w : Fin 3 → ℝ) :
    (rotationEuler yaw pitch roll *ᵥ v) ⬝ᵥ (rotationEuler yaw pitch roll *ᵥ w) = v ⬝ᵥ w := by
  rw [dotProduct_mulVec, ← mulVec_transpose, mulVec_mulVec, (C04_isRotation yaw pitch roll).1, one_mulVec]

/-- C04: factorisation into one-axis rotations which add their angles, turning the axes the way the docstring says
(yaw turns the x/y plane, pitch the x/z plane, roll the y/z plane; each axis is fixed by its own rotation). -/
theorem C04_axes (a b yaw pitch roll : ℝ) :
    rotationEuler yaw pitch roll = rotationEuler yaw 0 0 * rotationEuler 0 pitch 0 * rotationEuler 0 0 roll ∧
    rotationEuler a 0 0 * rotationEuler b 0 0 = rotationEuler (a + b) 0 0 ∧
    rotationEuler 0 a 0 * rotationEuler 0 b 0 = rotationEuler 0 (a + b) 0 ∧
    rotationEuler 0 0 a * rotationEuler 0 0 b = rotationEuler 0 0 (a + b) ∧
    rotationEuler 0 0 0 = 1 ∧
    rotationEuler yaw 0 0 *ᵥ ![0, 0, 1] = ![0, 0, 1] ∧
    rotationEuler 0 pitch 0 *ᵥ ![0, 1, 0] = ![0, 1, 0] ∧
    rotationEuler 0 0 roll *ᵥ ![1, 0, 0] = ![1, 0, 0] ∧
    rotationEuler yaw 0 0 *ᵥ ![1, 0, 0] = ![cos yaw, -sin yaw, 0] ∧
    rotationEuler 0 pitch 0 *ᵥ ![1, 0, 0] = ![cos pitch, 0, sin pitch] ∧
    rotationEuler 0 0 roll *ᵥ ![0, 1, 0] = ![0, cos roll, -sin roll] := by
  have hx : rotX 0 = 1 := by ext i j; fin_cases i <;> fin_cases j <;> simp [rotX]
  have hy : rotY 0 = 1 := by ext i j; fin_cases i <;> fin_cases j <;> simp [rotY]
  have hz : rotZ 0 = 1 := by ext i j; fin_cases i <;> fin_cases j <;> simp [rotZ]
  simp only [rotationEuler, hx, hy, hz, Matrix.mul_one, Matrix.one_mul]
  refine ⟨trivial, ?_, ?_, ?_, trivial, ?_, ?_, ?_, ?_, ?_, ?_⟩
  · ext i j; fin_cases i <;> fin_cases j <;>
      simp [rotZ, Matrix.mul_apply, Fin.sum_univ_three, sin_add, cos_add] <;> ring
  · ext i j; fin_cases i <;> fin_cases j <;>
      simp [rotY, Matrix.mul_apply, Fin.sum_univ_three, sin_add, cos_add] <;> ring
  · ext i j; fin_cases i <;> fin_cases j <;>
      simp [rotX, Matrix.mul_apply, Fin.sum_univ_three, sin_add, cos_add] <;> ring
  all_goals
    ext i; fin_cases i <;> simp [rotX, rotY, rotZ, mulVec, dotProduct, Fin.sum_univ_three]

/-- The normalised axis of `rotation_rodrigues`. -/
noncomputable def unit3 (v : Fin 3 → ℝ) : Fin 3 → ℝ := (norm3 v)⁻¹ • v

theorem norm3_pos {v : Fin 3 → ℝ} (h : v ≠ 0) : 0 < norm3 v := by
  apply Real.sqrt_pos.2
  exact lt_of_le_of_ne (Finset.sum_nonneg fun _ _ => mul_self_nonneg _) (fun h0 => h (dotProduct_self_eq_zero.1 h0.symm))

theorem norm3_sq (v : Fin 3 → ℝ) : norm3 v ^ 2 = v ⬝ᵥ v :=
  Real.sq_sqrt (Finset.sum_nonneg fun _ _ => mul_self_nonneg _)

theorem unit3_dot {v : Fin 3 → ℝ} (h : v ≠ 0) : unit3 v ⬝ᵥ unit3 v = 1 := by
  have hp := norm3_pos h
  unfold unit3
  rw [smul_dotProduct, dotProduct_smul, ← norm3_sq]
  simp only [smul_eq_mul]; field_simp

theorem crossMat_mulVec (k v : Fin 3 → ℝ) : crossMat k *ᵥ v = k ⨯₃ v := by
  ext i; fin_cases i <;> simp [crossMat, mulVec, dotProduct, Fin.sum_univ_three, cross_apply] <;> ring

theorem crossMat_sq (k : Fin 3 → ℝ) (h : k ⬝ᵥ k = 1) :
    crossMat k * crossMat k = vecMulVec k k - 1 := by
  simp only [dotProduct, Fin.sum_univ_three] at h
  ext i j
  fin_cases i <;> fin_cases j <;>
    simp [crossMat, Matrix.mul_apply, Fin.sum_univ_three, vecMulVec_apply] <;> linarith

theorem crossMat_cube (k : Fin 3 → ℝ) (h : k ⬝ᵥ k = 1) :
    crossMat k * (crossMat k * crossMat k) = -crossMat k := by
  rw [crossMat_sq k h, mul_sub, Matrix.mul_one]
  have : crossMat k * vecMulVec k k = 0 := by
    ext i j; fin_cases i <;> simp [crossMat, Matrix.mul_apply, Fin.sum_univ_three, vecMulVec_apply] <;> ring
  rw [this, zero_sub]

/-- The Rodrigues matrix for a unit axis is a proper rotation. -/
theorem isRotation_rodrigues (k : Fin 3 → ℝ) (h : k ⬝ᵥ k = 1) (t : ℝ) :
    IsRotation (1 + sin t • crossMat k + (1 - cos t) • (crossMat k * crossMat k)) := by
  set K := crossMat k with hK
  have hT : Kᵀ = -K := by
    ext i j; fin_cases i <;> fin_cases j <;> simp [hK, crossMat]
  have h3 : K * (K * K) = -K := crossMat_cube k h
  have h4 : K * K * (K * K) = -(K * K) := by
    rw [Matrix.mul_assoc, h3, Matrix.mul_neg]
  have h3' : K * K * K = -K := by rw [Matrix.mul_assoc, h3]
  have hs := sin_sq_add_cos_sq t
  have key : (1 - sin t • K + (1 - cos t) • (K * K)) * (1 + sin t • K + (1 - cos t) • (K * K)) = 1 := by
    have : (1 - sin t • K + (1 - cos t) • (K * K)) * (1 + sin t • K + (1 - cos t) • (K * K))
        = 1 + (2 * (1 - cos t) - sin t ^ 2) • (K * K) + (1 - cos t) ^ 2 • (K * K * (K * K))
          + (sin t * (1 - cos t)) • (K * K * K - K * (K * K)) := by
      simp only [add_mul, sub_mul, mul_add, one_mul, mul_one, smul_mul_assoc, mul_smul_comm]
      module
    rw [this, h4, h3', h3]
    have e : (2 * (1 - cos t) - sin t ^ 2) - (1 - cos t) ^ 2 = 0 := by nlinarith
    have : (1 : Matrix (Fin 3) (Fin 3) ℝ) + (2 * (1 - cos t) - sin t ^ 2) • (K * K) + (1 - cos t) ^ 2 • -(K * K)
        + (sin t * (1 - cos t)) • (-K - -K)
        = 1 + ((2 * (1 - cos t) - sin t ^ 2) - (1 - cos t) ^ 2) • (K * K) := by module
    rw [this, e]; simp
  have hRT : (1 + sin t • K + (1 - cos t) • (K * K))ᵀ = 1 - sin t • K + (1 - cos t) • (K * K) := by
    simp only [transpose_add, transpose_one, transpose_smul, transpose_mul, hT]
    simp only [neg_mul, mul_neg, neg_neg, smul_neg]
    module
  refine ⟨by rw [hRT, key], ?_, ?_⟩
  · rw [hRT]; exact mul_eq_one_comm.1 key
  · rw [hK, crossMat_sq k h]
    simp only [dotProduct, Fin.sum_univ_three] at h
    have : (1 + sin t • crossMat k + (1 - cos t) • (vecMulVec k k - 1)).det
        = (cos t ^ 2 + sin t ^ 2 * (k 0 * k 0 + k 1 * k 1 + k 2 * k 2))
          * (cos t + (1 - cos t) * (k 0 * k 0 + k 1 * k 1 + k 2 * k 2)) := by
      rw [det_fin_three]
      simp [crossMat, vecMulVec_apply]
      ring
    rw [this, h]; nlinarith

/-- C05: above the threshold `rotation_rodrigues` is a proper rotation about the axis, by the angle, right-handed. -/
theorem C05_rotation (a b c theta : ℝ) (hk : ![a, b, c] ≠ 0) (ht : 10e-10 < theta) :
    ∃ R, rotationRodrigues [a, b, c] theta = .ok R ∧ IsRotation R ∧ R *ᵥ ![a, b, c] = ![a, b, c] ∧
      ∀ v : Fin 3 → ℝ, v ⬝ᵥ ![a, b, c] = 0 →
        R *ᵥ v = cos theta • v + sin theta • ((norm3 ![a, b, c])⁻¹ • ![a, b, c] ⨯₃ v) := by
  set k := unit3 ![a, b, c] with hkdef
  have h1 : k ⬝ᵥ k = 1 := unit3_dot hk
  refine ⟨_, by simp only [rotationRodrigues]; rw [if_pos ht]; rfl, isRotation_rodrigues k h1 theta, ?_, ?_⟩
  · have hcross : crossMat k *ᵥ ![a, b, c] = 0 := by
      rw [crossMat_mulVec, hkdef, unit3, LinearMap.map_smul, LinearMap.smul_apply, cross_self, smul_zero]
    change (1 + sin theta • crossMat k + (1 - cos theta) • (crossMat k * crossMat k)) *ᵥ _ = _
    rw [add_mulVec, add_mulVec, one_mulVec, smul_mulVec, smul_mulVec, ← mulVec_mulVec, hcross]
    simp
  · intro v hv
    change (1 + sin theta • crossMat k + (1 - cos theta) • (crossMat k * crossMat k)) *ᵥ v = _
    rw [crossMat_sq k h1, add_mulVec, add_mulVec, one_mulVec, smul_mulVec, smul_mulVec, sub_mulVec, one_mulVec,
      crossMat_mulVec]
    have h0 : vecMulVec k k *ᵥ v = 0 := by
      have hkv : k ⬝ᵥ v = 0 := by
        rw [hkdef, unit3, smul_dotProduct, dotProduct_comm, hv, smul_zero]
      rw [vecMulVec_mulVec, hkv]; simp
    rw [h0, hkdef, unit3, LinearMap.map_smul, LinearMap.smul_apply]
    module

example : ![(0 : ℝ), 0, 2] ≠ 0 ∧ (10e-10 : ℝ) < 1 := by
  refine ⟨fun h => ?_, by norm_num⟩
  have := congrFun h 2
  simp at this

/-- C05: at or below the threshold, in particular for every negative angle, the identity is returned. -/
theorem C05_below_threshold (a b c theta : ℝ) (ht : theta ≤ 10e-10) :
    rotationRodrigues [a, b, c] theta = .ok 1 := by
  simp only [rotationRodrigues]; rw [if_neg (not_lt.2 ht)]

example : (-1 : ℝ) ≤ 10e-10 := by norm_num

/-- C05: hence `R(k, -θ)` is not the inverse of `R(k, θ)`: the sign of the angle is lost. -/
theorem C05_negative_angle_not_inverse :
    ∃ (a b c theta : ℝ) (R R' : Matrix (Fin 3) (Fin 3) ℝ), ![a, b, c] ≠ 0 ∧
      rotationRodrigues [a, b, c] theta = .ok R ∧ rotationRodrigues [a, b, c] (-theta) = .ok R' ∧ R' * R ≠ 1 := by
  have hpi : (10e-10 : ℝ) < π := lt_trans (by norm_num) pi_gt_three
  refine ⟨0, 0, 1, π, _, 1, ?_, by simp only [rotationRodrigues]; rw [if_pos hpi], ?_, ?_⟩
  · intro h
    have := congrFun h 2
    simp at this
  · exact C05_below_threshold _ _ _ _ (le_trans (neg_nonpos.2 pi_pos.le) (by norm_num))
  · intro h
    have h00 := congrFun (congrFun h 0) 0
    simp [crossMat, norm3, Matrix.mul_apply, Fin.sum_univ_three] at h00
    norm_num at h00

/-- C05: axes that do not have three entries are rejected. -/
theorem C05_reject (k : List ℝ) (theta : ℝ) (h : k.length ≠ 3) :
    rotationRodrigues k theta = .error .assertionError := by
  match k, h with
  | [], _ => rfl
  | [_], _ => rfl
  | [_, _], _ => rfl
  | [_, _, _], h => simp at h
  | _ :: _ :: _ :: _ :: _, _ => rfl

example : ([1, 2] : List ℝ).length ≠ 3 := by decide

/-- C06: `rotation_vecvec` raises exactly for (numerically) collinear directions. -/
theorem C06_error_iff (f0 f1 f2 t0 t1 t2 : ℝ) :
    rotationVecvec [f0, f1, f2] [t0, t1, t2] = .error .valueError ↔
      norm3 (((norm3 ![f0, f1, f2])⁻¹ • ![f0, f1, f2]) ⨯₃ ((norm3 ![t0, t1, t2])⁻¹ • ![t0, t1, t2])) < 10e-15 := by
  simp only [rotationVecvec]
  constructor
  · intro h
    by_contra hn
    rw [if_neg hn] at h
    simp only [rotationRodrigues] at h
    split_ifs at h
  · intro h
    rw [if_pos h]

/-- C06: otherwise, if the angle exceeds `10e-10`, the result is a proper rotation taking `f/|f|` to `t/|t|`. -/
theorem C06_maps (f0 f1 f2 t0 t1 t2 : ℝ) (hf : ![f0, f1, f2] ≠ 0) (ht : ![t0, t1, t2] ≠ 0)
    (hk : 10e-15 ≤ norm3 (unit3 ![f0, f1, f2] ⨯₃ unit3 ![t0, t1, t2]))
    (hang : 10e-10 < arccos (unit3 ![f0, f1, f2] ⬝ᵥ unit3 ![t0, t1, t2])) :
    ∃ R, rotationVecvec [f0, f1, f2] [t0, t1, t2] = .ok R ∧ IsRotation R ∧
      R *ᵥ unit3 ![f0, f1, f2] = unit3 ![t0, t1, t2] := by
  have hf1 := unit3_dot hf
  have ht1 := unit3_dot ht
  set f := unit3 ![f0, f1, f2] with hfd
  set t := unit3 ![t0, t1, t2] with htd
  set k := f ⨯₃ t with hkd
  have hkpos : 0 < norm3 k := lt_of_lt_of_le (by norm_num) hk
  have hkne : k ≠ 0 := by
    intro h; rw [h] at hkpos; simp [norm3] at hkpos
  have hkvec : ![k 0, k 1, k 2] = k := by ext i; fin_cases i <;> rfl
  obtain ⟨R, hR, hrot, -, hperp⟩ := C05_rotation (k 0) (k 1) (k 2) (arccos (f ⬝ᵥ t)) (by rw [hkvec]; exact hkne) hang
  refine ⟨R, ?_, hrot, ?_⟩
  · simp only [rotationVecvec]
    rw [if_neg]
    · exact hR
    · exact not_lt.2 hk
  · rw [hkvec] at hperp
    have hfk : f ⬝ᵥ k = 0 := by rw [hkd]; exact dot_self_cross f t
    rw [hperp f hfk]
    have hksq : norm3 k ^ 2 = 1 - (f ⬝ᵥ t) ^ 2 := by
      rw [norm3_sq, hkd, cross_dot_cross, hf1, ht1, dotProduct_comm t f]; ring
    have hle : (f ⬝ᵥ t) ^ 2 ≤ 1 := by nlinarith [sq_nonneg (norm3 k)]
    have hb := abs_le.1 ((sq_le_one_iff_abs_le_one _).1 hle)
    rw [cos_arccos hb.1 hb.2, sin_arccos, ← hksq, Real.sqrt_sq hkpos.le, smul_smul, mul_inv_cancel₀ hkpos.ne', one_smul]
    have hcr : k ⨯₃ f = t - (f ⬝ᵥ t) • f := by
      simp only [dotProduct, Fin.sum_univ_three] at hf1
      have a0 := hf1
      ext i
      fin_cases i <;> simp [hkd, cross_apply, dotProduct, Fin.sum_univ_three]
      · linear_combination (t 0) * hf1
      · linear_combination (t 1) * hf1
      · linear_combination (t 2) * hf1
    rw [hcr]; module

/-- Two orthogonal directions satisfy the hypotheses of `C06_maps`. -/
example : ![(2 : ℝ), 0, 0] ≠ 0 ∧ ![(0 : ℝ), 3, 0] ≠ 0 ∧
    10e-15 ≤ norm3 (unit3 ![(2 : ℝ), 0, 0] ⨯₃ unit3 ![0, 3, 0]) ∧
    10e-10 < arccos (unit3 ![(2 : ℝ), 0, 0] ⬝ᵥ unit3 ![0, 3, 0]) := by
  have h2 : norm3 ![(2 : ℝ), 0, 0] = 2 := by
    simp [norm3]
  have h3 : norm3 ![(0 : ℝ), 3, 0] = 3 := by
    simp [norm3]
  refine ⟨fun h => ?_, fun h => ?_, ?_, ?_⟩
  · have := congrFun h 0; simp at this
  · have := congrFun h 1; simp at this
  · simp only [unit3, h2, h3]
    simp [cross_apply, norm3]; norm_num
  · simp only [unit3, h2, h3]
    simp
    exact lt_trans (by norm_num) (div_lt_div_of_pos_right pi_gt_three two_pos)

/-- C06: in the gap between the two thresholds the identity is returned silently, although the vectors differ. -/
theorem C06_gap (f0 f1 f2 t0 t1 t2 : ℝ)
    (hk : 10e-15 ≤ norm3 (unit3 ![f0, f1, f2] ⨯₃ unit3 ![t0, t1, t2]))
    (hang : arccos (unit3 ![f0, f1, f2] ⬝ᵥ unit3 ![t0, t1, t2]) ≤ 10e-10) :
    rotationVecvec [f0, f1, f2] [t0, t1, t2] = .ok 1 := by
  simp only [rotationVecvec]
  rw [if_neg]
  · exact C05_below_threshold _ _ _ _ hang
  · exact not_lt.2 hk

/-- Two directions `1e-12` rad apart fall into the gap (and differ). -/
example : 10e-15 ≤ norm3 (unit3 ![(1 : ℝ), 0, 0] ⨯₃ unit3 ![cos 1e-12, sin 1e-12, 0]) ∧
    arccos (unit3 ![(1 : ℝ), 0, 0] ⬝ᵥ unit3 ![cos 1e-12, sin 1e-12, 0]) ≤ 10e-10 ∧
    unit3 ![(1 : ℝ), 0, 0] ≠ unit3 ![cos 1e-12, sin 1e-12, 0] := by
  have h1 : norm3 ![(1 : ℝ), 0, 0] = 1 := by simp [norm3]
  have h2 : norm3 ![cos 1e-12, sin 1e-12, 0] = 1 := by
    unfold norm3; rw [Real.sqrt_eq_one]; simp; nlinarith [sin_sq_add_cos_sq (1e-12 : ℝ)]
  have hs : (10e-15 : ℝ) ≤ sin 1e-12 := by
    have := Real.sin_gt_sub_cube (x := 1e-12) (by norm_num)
    refine le_trans ?_ this.le
    norm_num
  simp only [unit3, h1, h2]
  refine ⟨?_, ?_, ?_⟩
  · have : norm3 (((1 : ℝ)⁻¹ • ![(1 : ℝ), 0, 0]) ⨯₃ ((1 : ℝ)⁻¹ • ![cos 1e-12, sin 1e-12, 0])) = sin 1e-12 := by
      have h0 : (0 : ℝ) ≤ sin 1e-12 := le_trans (by norm_num) hs
      simp [cross_apply, norm3, Real.sqrt_mul_self h0]
    rw [this]; exact hs
  · have : ((1 : ℝ)⁻¹ • ![(1 : ℝ), 0, 0]) ⬝ᵥ ((1 : ℝ)⁻¹ • ![cos 1e-12, sin 1e-12, 0]) = cos 1e-12 := by simp
    rw [this, arccos_cos (by norm_num) (le_trans (by norm_num) pi_gt_three.le)]
    norm_num
  · intro h
    have h3 := congrFun h 1
    simp only [inv_one, one_smul] at h3
    simp at h3
    have h4 : sin (1e-12 : ℝ) = 0 := by simpa using h3.symm
    rw [h4] at hs; norm_num at hs

end Verif.Utils
