import Verif.Model.SphHarm
import Verif.Proofs.SolidRot3
import Mathlib.Algebra.Polynomial.Derivation
import Mathlib.Algebra.Polynomial.AlgebraMap
import Mathlib.Tactic

/-!
The spherical harmonics of the code are the normalised solid harmonics restricted to the unit sphere.
-/

namespace Verif.Sph
open Real Polynomial Verif.Solid

/-- `-(1-X²)/4`. -/
noncomputable def wX : ℝ[X] := (-(1 / 4) : ℝ) • (1 - X ^ 2)

theorem wX_rel : (X : ℝ[X]) ^ 2 - (4 : ℝ) • wX = 1 := by
  unfold wX; algebra

theorem legPoly_eq (n : ℕ) : legPoly n = (n.factorial : ℝ) • T X wX n 0 := by
  induction n using Nat.twoStepInduction with
  | zero => rw [legPoly, T_self]; simp
  | one =>
    rw [legPoly]
    have h := T_eq_sum (X : ℝ[X]) wX (l := 1) (N := 2) 0 (by norm_num)
    rw [h]
    simp [Finset.sum_range_succ, term]
  | more n h1 h2 =>
    rw [legPoly, h1, h2]
    have hb := T_bonnet (X : ℝ[X]) wX n 0
    rw [wX_rel] at hb
    have e : ((n + 2).factorial : ℝ) • T X wX (n + 2) 0
        = (((n + 1).factorial : ℝ) / ((n : ℝ) + 2)) • ((((n : ℝ) + 2) ^ 2 - ((0 : ℕ) : ℝ) ^ 2) • T X wX (n + 2) 0) := by
      rw [smul_smul]; congr 1
      rw [Nat.factorial_succ (n + 1)]; push_cast; field_simp; ring
    rw [e, hb, Nat.factorial_succ n]
    simp only [← smul_eq_C_mul, smul_sub, smul_mul_assoc, mul_smul_comm, smul_smul, one_mul]
    push_cast
    congr 1
    · congr 1; field_simp
    · congr 1; field_simp

theorem derivative_T (n m : ℕ) :
    derivative (T (X : ℝ[X]) wX n m) = (((n : ℝ) + m + 1) / 2) • T X wX n (m + 1) := by
  cases n with
  | zero =>
    have h := D_T_zero (Polynomial.derivative' (R := ℝ)) (X : ℝ[X]) wX m
    rw [Polynomial.derivative'_apply] at h
    rw [h, T_zero_of_lt _ _ (by omega)]; simp
  | succ n =>
    have h := D_T (Polynomial.derivative' (R := ℝ)) (X : ℝ[X]) wX n m
    simp only [Polynomial.derivative'_apply] at h
    have hr := T_raise (X : ℝ[X]) wX n m
    have hw : derivative wX = (1 / 2 : ℝ) • X := by
      unfold wX
      rw [derivative_smul]; simp only [derivative_sub, derivative_one, derivative_X_pow]
      simp only [smul_eq_C_mul]
      rw [show (1 / 2 : ℝ) = (1 / 4) * 2 by norm_num, C_mul]
      simp [C_ofNat]
      ring
    rw [h, hw, derivative_X, one_mul]
    push_cast
    have e : ((n : ℝ) + 1 + m + 1) / 2 = (1 / 2) * (n + m + 2) := by ring
    rw [e, mul_smul, ← hr]
    algebra

theorem iterate_derivative_legPoly (n m : ℕ) :
    derivative^[m] (legPoly n) = (((n + m).factorial : ℝ) / 2 ^ m) • T (X : ℝ[X]) wX n m := by
  induction m with
  | zero => simp [legPoly_eq]
  | succ m ih =>
    rw [Function.iterate_succ_apply', ih, derivative_smul, derivative_T, smul_smul]
    congr 1
    rw [← add_assoc, Nat.factorial_succ]; push_cast
    rw [pow_succ]; field_simp

theorem assocLegendre_eq (n m : ℕ) (c : ℝ) :
    assocLegendre n m c = (-1) ^ m * √(1 - c ^ 2) ^ m * (((n + m).factorial : ℝ) / 2 ^ m)
      * T c (-(1 / 4) * (1 - c ^ 2)) n m := by
  have key : ∀ p : ℝ[X], p.eval c = aeval c p := fun p => by simp [aeval_def, eval₂_eq_eval_map]
  have hT : (T (X : ℝ[X]) wX n m).eval c = T c (-(1 / 4) * (1 - c ^ 2)) n m := by
    rw [key, map_T]
    congr 1
    · simp
    · simp [wX]
  rw [assocLegendre, iterate_derivative_legPoly, eval_smul, hT, smul_eq_mul]; ring

theorem cs_polar (s φ : ℝ) (m : ℕ) :
    cs (cos φ * s) (sin φ * s) m = (s ^ m * cos (m * φ), s ^ m * sin (m * φ)) := by
  induction m with
  | zero => simp [cs]
  | succ m ih =>
    rw [cs, ih]
    push_cast
    rw [add_mul, one_mul, cos_add, sin_add]
    ext <;> simp only <;> ring

theorem W_polar (s φ : ℝ) : W (cos φ * s) (sin φ * s) = -(1 / 4) * s ^ 2 := by
  have := sin_sq_add_cos_sq φ
  rw [W, smul_eq_mul]
  linear_combination (-(1 / 4) * s ^ 2) * this

theorem norm_kap (n m : ℕ) :
    √((2 * n + 1) / (4 * π) * ((n - m).factorial / (n + m).factorial)) * ((n + m).factorial : ℝ)
      = √((2 * n + 1) / (4 * π)) * kap n m := by
  have hf : (0 : ℝ) < ((n + m).factorial : ℝ) := by positivity
  rw [kap, Real.sqrt_mul (by positivity), mul_assoc]
  congr 1
  nth_rw 2 [← Real.sqrt_sq hf.le]
  rw [← Real.sqrt_mul (by positivity)]
  congr 1
  push_cast
  field_simp

theorem sphHarmNonneg_eq (m n : ℕ) (azi zen : ℝ) :
    sphHarmNonneg m n azi zen = ((√((2 * n + 1) / (4 * π)) * kap n m * ((-1) ^ m * (|sin zen| ^ m
      * T (cos zen) (-(1 / 4) * |sin zen| ^ 2) n m / 2 ^ m)) : ℝ) : ℂ)
      * Complex.exp ((m * azi : ℝ) * Complex.I) := by
  rw [sphHarmNonneg, ← norm_kap, assocLegendre_eq]
  have h1 : √(1 - cos zen ^ 2) = |sin zen| := by
    rw [show 1 - cos zen ^ 2 = sin zen ^ 2 by rw [← sin_sq_add_cos_sq zen]; ring, Real.sqrt_sq_eq_abs]
  have h2 : 1 - cos zen ^ 2 = |sin zen| ^ 2 := by
    rw [sq_abs, ← sin_sq_add_cos_sq zen]; ring
  rw [h1, h2]
  congr 2
  ring

/-- The real spherical harmonics of the code in terms of solid harmonics (any zenith, including outside `[0, π]`). -/
theorem realSH_eq_harm (n : ℕ) (m : ℤ) (azi zen : ℝ) : realSH n m azi zen
    = √((2 * n + 1) / (4 * π)) * harm (cos azi * |sin zen|) (sin azi * |sin zen|) (cos zen) n m := by
  have hneg : ∀ k : ℕ, ((-1 : ℝ) ^ k) * (-1) ^ k = 1 := fun k => by rw [← mul_pow]; norm_num
  obtain rfl | ⟨k, rfl⟩ | ⟨k, rfl⟩ : m = 0 ∨ (∃ k : ℕ, m = (k : ℤ) + 1) ∨ ∃ k : ℕ, m = -((k : ℤ) + 1) := by
    rcases lt_trichotomy m 0 with h | h | h
    · exact Or.inr (Or.inr ⟨(-m - 1).toNat, by omega⟩)
    · exact Or.inl h
    · exact Or.inr (Or.inl ⟨(m - 1).toNat, by omega⟩)
  · rw [realSH, if_pos rfl, sphHarm, if_pos (le_refl _), Int.natAbs_zero, sphHarmNonneg_eq, harm_zero, Cc, cs,
      W_polar, Complex.re_ofReal_mul, Complex.exp_ofReal_mul_I_re]
    simp only [smul_eq_mul]
    push_cast
    simp
    ring
  · have ha : |(k : ℤ) + 1| = (k : ℤ) + 1 := abs_of_nonneg (by omega)
    have hn : ((k : ℤ) + 1).natAbs = k + 1 := by omega
    rw [realSH, if_neg (by omega), if_neg (by omega), ha, sphHarm, if_pos (by omega), hn, sphHarmNonneg_eq,
      harm_pos, Cc, W_polar, cs_polar, Complex.re_ofReal_mul, Complex.exp_ofReal_mul_I_re]
    simp only [smul_eq_mul]
    have := hneg (k + 1)
    linear_combination (√2 * √((2 * n + 1) / (4 * π)) * kap n (k + 1) * (|sin zen| ^ (k + 1)
      * T (cos zen) (-(1 / 4) * |sin zen| ^ 2) n (k + 1) / 2 ^ (k + 1)) * cos (((k + 1 : ℕ) : ℝ) * azi)) * this
  · have ha : |-((k : ℤ) + 1)| = (k : ℤ) + 1 := by rw [abs_neg]; exact abs_of_nonneg (by omega)
    have hn : ((k : ℤ) + 1).natAbs = k + 1 := by omega
    have hn' : (-((k : ℤ) + 1)).natAbs = k + 1 := by omega
    rw [realSH, if_neg (by omega), if_pos (by omega), ha, sphHarm, if_pos (by omega), hn, hn', sphHarmNonneg_eq,
      harm_neg, Ss, W_polar, cs_polar, Complex.im_ofReal_mul, Complex.exp_ofReal_mul_I_im]
    simp only [smul_eq_mul]
    have := hneg (k + 1)
    linear_combination (√2 * √((2 * n + 1) / (4 * π)) * kap n (k + 1) * (|sin zen| ^ (k + 1)
      * T (cos zen) (-(1 / 4) * |sin zen| ^ 2) n (k + 1) / 2 ^ (k + 1)) * sin (((k + 1 : ℕ) : ℝ) * azi)) * this

end Verif.Sph
