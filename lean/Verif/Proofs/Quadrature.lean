import Verif.Model.Grids
import Verif.Proofs.LegendreOrth
import Mathlib.Analysis.SpecialFunctions.Trigonometric.Chebyshev.Basic
import Mathlib.Algebra.Polynomial.Sequence

/-!
Discrete orthogonality on product grids: trigonometric sums, exactness of the polar rules.
-/

namespace Verif.Sph
open Real Polynomial

/-! ### Trigonometric sums -/

theorem sum_sin_telescope (f : ℕ → ℝ) (L : ℕ) : ∑ k ∈ Finset.range L, (f (k + 1) - f k) = f L - f 0 :=
  Finset.sum_range_sub f L

theorem sin_frac_ne {L : ℕ} {j : ℤ} (hj : j ≠ 0) (h : |j| < L) : sin (j * (π / L)) ≠ 0 := by
  have hL : (0 : ℝ) < L := by
    have : (0 : ℤ) < L := lt_of_le_of_lt (abs_nonneg j) h
    exact_mod_cast this
  have hj' : (j : ℝ) ≠ 0 := by exact_mod_cast hj
  have h2 : |(j : ℝ)| < L := by exact_mod_cast h
  rw [abs_lt] at h2
  have e : (j : ℝ) * (π / L) = j / L * π := by ring
  have u : (j : ℝ) / L < 1 := by rw [div_lt_one hL]; exact h2.2
  have l : -1 < (j : ℝ) / L := by rw [lt_div_iff₀ hL]; linarith [h2.1]
  rw [e, Ne, sin_eq_zero_iff_of_lt_of_lt (by nlinarith [pi_pos]) (by nlinarith [pi_pos])]
  have : (j : ℝ) / L ≠ 0 := by positivity
  exact mul_ne_zero this pi_ne_zero

/-- Equispaced points on the circle. -/
theorem sum_cos_equi {L : ℕ} {j : ℤ} (h : |j| < L) :
    ∑ k ∈ Finset.range L, cos (j * (k * (2 * π / L))) = if j = 0 then (L : ℝ) else 0 := by
  split_ifs with h0
  · subst h0; simp
  · have hs := sin_frac_ne h0 h
    have hL : (L : ℝ) ≠ 0 := by
      have : (0 : ℤ) < L := lt_of_le_of_lt (abs_nonneg j) h
      have : (0 : ℝ) < L := by exact_mod_cast this
      positivity
    have key : ∀ k : ℕ, 2 * sin (j * (π / L)) * cos (j * (k * (2 * π / L)))
        = sin ((2 * ((k + 1 : ℕ) : ℝ) - 1) * (j * (π / L))) - sin ((2 * (k : ℝ) - 1) * (j * (π / L))) := by
      intro k
      have e1 : (2 * ((k + 1 : ℕ) : ℝ) - 1) * (j * (π / L)) = j * (k * (2 * π / L)) + j * (π / L) := by
        push_cast; ring
      have e2 : (2 * (k : ℝ) - 1) * (j * (π / L)) = j * (k * (2 * π / L)) - j * (π / L) := by ring
      rw [e1, e2, sin_add, sin_sub]; ring
    have hsum : 2 * sin (j * (π / L)) * ∑ k ∈ Finset.range L, cos (j * (k * (2 * π / L))) = 0 := by
      rw [Finset.mul_sum, Finset.sum_congr rfl fun k _ => key k, Finset.sum_range_sub
        (fun k : ℕ => sin ((2 * (k : ℝ) - 1) * (j * (π / L))))]
      have e1 : (2 * (L : ℝ) - 1) * (j * (π / L)) = -(j * (π / L)) + j * (2 * π) := by field_simp; ring
      rw [e1, sin_add_int_mul_two_pi]
      simp
    rcases mul_eq_zero.1 hsum with h1 | h1
    · exact absurd (by linarith) hs
    · exact h1

theorem sum_sin_equi {L : ℕ} {j : ℤ} (h : |j| < L) :
    ∑ k ∈ Finset.range L, sin (j * (k * (2 * π / L))) = 0 := by
  by_cases h0 : j = 0
  · subst h0; simp
  · have hs := sin_frac_ne h0 h
    have hL : (L : ℝ) ≠ 0 := by
      have : (0 : ℤ) < L := lt_of_le_of_lt (abs_nonneg j) h
      have : (0 : ℝ) < L := by exact_mod_cast this
      positivity
    have key : ∀ k : ℕ, -(2 * sin (j * (π / L))) * sin (j * (k * (2 * π / L)))
        = cos ((2 * ((k + 1 : ℕ) : ℝ) - 1) * (j * (π / L))) - cos ((2 * (k : ℝ) - 1) * (j * (π / L))) := by
      intro k
      have e1 : (2 * ((k + 1 : ℕ) : ℝ) - 1) * (j * (π / L)) = j * (k * (2 * π / L)) + j * (π / L) := by
        push_cast; ring
      have e2 : (2 * (k : ℝ) - 1) * (j * (π / L)) = j * (k * (2 * π / L)) - j * (π / L) := by ring
      rw [e1, e2, cos_add, cos_sub]; ring
    have hsum : -(2 * sin (j * (π / L))) * ∑ k ∈ Finset.range L, sin (j * (k * (2 * π / L))) = 0 := by
      rw [Finset.mul_sum, Finset.sum_congr rfl fun k _ => key k, Finset.sum_range_sub
        (fun k : ℕ => cos ((2 * (k : ℝ) - 1) * (j * (π / L))))]
      have e1 : (2 * (L : ℝ) - 1) * (j * (π / L)) = -(j * (π / L)) + j * (2 * π) := by field_simp; ring
      rw [e1, cos_add_int_mul_two_pi]
      simp
    rcases mul_eq_zero.1 hsum with h1 | h1
    · exact absurd (by linarith) hs
    · exact h1

/-- Midpoints of the half circle. -/
theorem sum_cos_mid {M : ℕ} {j : ℤ} (h : |j| < 2 * M) :
    ∑ k ∈ Finset.range M, cos (j * (k * (π / M) + π / M / 2)) = if j = 0 then (M : ℝ) else 0 := by
  split_ifs with h0
  · subst h0; simp
  · have hM : (0 : ℝ) < M := by
      have : (0 : ℤ) < M := by have := lt_of_le_of_lt (abs_nonneg j) h; omega
      exact_mod_cast this
    have hs := sin_frac_ne (L := 2 * M) h0 (by push_cast; exact h)
    push_cast at hs
    have key : ∀ k : ℕ, 2 * sin (j * (π / (2 * M))) * cos (j * (k * (π / M) + π / M / 2))
        = sin (((k + 1 : ℕ) : ℝ) * (j * (π / M))) - sin ((k : ℝ) * (j * (π / M))) := by
      intro k
      have e1 : ((k + 1 : ℕ) : ℝ) * (j * (π / M)) = j * (k * (π / M) + π / M / 2) + j * (π / (2 * M)) := by
        push_cast; field_simp; ring
      have e2 : (k : ℝ) * (j * (π / M)) = j * (k * (π / M) + π / M / 2) - j * (π / (2 * M)) := by
        field_simp; ring
      rw [e1, e2, sin_add, sin_sub]; ring
    have hsum : 2 * sin (j * (π / (2 * M))) * ∑ k ∈ Finset.range M, cos (j * (k * (π / M) + π / M / 2)) = 0 := by
      rw [Finset.mul_sum, Finset.sum_congr rfl fun k _ => key k, Finset.sum_range_sub
        (fun k : ℕ => sin ((k : ℝ) * (j * (π / M))))]
      have e1 : (M : ℝ) * (j * (π / M)) = j * π := by field_simp
      rw [e1, sin_int_mul_pi]; simp
    rcases mul_eq_zero.1 hsum with h1 | h1
    · exact absurd (by linarith) hs
    · exact h1

/-! ### Azimuth part of the harmonics -/

/-- Azimuth factor of the real harmonics. -/
noncomputable def azF (m : ℤ) (φ : ℝ) : ℝ :=
  if m = 0 then 1 else if m < 0 then √2 * sin (m.natAbs * φ) else √2 * cos (m.natAbs * φ)

theorem azF_zero (φ : ℝ) : azF 0 φ = 1 := if_pos rfl
theorem azF_neg {m : ℤ} (h : m < 0) (φ : ℝ) : azF m φ = √2 * sin (m.natAbs * φ) := by
  unfold azF; rw [if_neg (by omega), if_pos h]
theorem azF_pos {m : ℤ} (h : 0 < m) (φ : ℝ) : azF m φ = √2 * cos (m.natAbs * φ) := by
  unfold azF; rw [if_neg (by omega), if_neg (by omega)]

theorem azF_orth {L : ℕ} {m m' : ℤ} (h : |m| + |m'| < L) :
    ∑ k ∈ Finset.range L, azF m (k * (2 * π / L)) * azF m' (k * (2 * π / L)) = if m = m' then (L : ℝ) else 0 := by
  have h2 : √2 * √2 = (2 : ℝ) := Real.mul_self_sqrt (by norm_num)
  have hcos : ∀ j : ℤ, |j| < L → ∑ k ∈ Finset.range L, cos (j * (k * (2 * π / L))) = if j = 0 then (L : ℝ) else 0 :=
    fun j hj => sum_cos_equi hj
  have hsin : ∀ j : ℤ, |j| < L → ∑ k ∈ Finset.range L, sin (j * (k * (2 * π / L))) = 0 := fun j hj => sum_sin_equi hj
  set a : ℤ := (m.natAbs : ℤ) with ha
  set b : ℤ := (m'.natAbs : ℤ) with hb
  have ea : |m| = a := (Int.natCast_natAbs m).symm
  have eb : |m'| = b := (Int.natCast_natAbs m').symm
  rw [ea, eb] at h
  have hab : |a + b| < L := by rw [abs_of_nonneg (by omega)]; exact h
  have hab' : |a - b| < L := by rw [abs_lt]; omega
  have haL : |a| < L := by rw [abs_of_nonneg (by omega)]; omega
  have hbL : |b| < L := by rw [abs_of_nonneg (by omega)]; omega
  have ca : ∀ x : ℝ, ((m.natAbs : ℕ) : ℝ) * x = ((a : ℤ) : ℝ) * x := by intro x; rw [ha]; simp
  have cb : ∀ x : ℝ, ((m'.natAbs : ℕ) : ℝ) * x = ((b : ℤ) : ℝ) * x := by intro x; rw [hb]; simp
  have pcc : ∑ k ∈ Finset.range L, 2 * (cos (a * (k * (2 * π / L))) * cos (b * (k * (2 * π / L))))
      = (if a + b = 0 then (L : ℝ) else 0) + if a - b = 0 then (L : ℝ) else 0 := by
    rw [← hcos _ hab, ← hcos _ hab', ← Finset.sum_add_distrib]
    refine Finset.sum_congr rfl fun k _ => ?_
    push_cast; rw [add_mul, sub_mul, cos_add, cos_sub]; ring
  have pss : ∑ k ∈ Finset.range L, 2 * (sin (a * (k * (2 * π / L))) * sin (b * (k * (2 * π / L))))
      = (if a - b = 0 then (L : ℝ) else 0) - if a + b = 0 then (L : ℝ) else 0 := by
    rw [← hcos _ hab, ← hcos _ hab', ← Finset.sum_sub_distrib]
    refine Finset.sum_congr rfl fun k _ => ?_
    push_cast; rw [add_mul, sub_mul, cos_add, cos_sub]; ring
  have psc : ∑ k ∈ Finset.range L, 2 * (sin (a * (k * (2 * π / L))) * cos (b * (k * (2 * π / L)))) = 0 := by
    have e : ∑ k ∈ Finset.range L, 2 * (sin (a * (k * (2 * π / L))) * cos (b * (k * (2 * π / L))))
        = ∑ k ∈ Finset.range L, sin (((a + b : ℤ) : ℝ) * (k * (2 * π / L)))
          + ∑ k ∈ Finset.range L, sin (((a - b : ℤ) : ℝ) * (k * (2 * π / L))) := by
      rw [← Finset.sum_add_distrib]
      refine Finset.sum_congr rfl fun k _ => ?_
      push_cast; rw [add_mul, sub_mul, sin_add, sin_sub]; ring
    rw [e, hsin _ hab, hsin _ hab', add_zero]
  have pcs : ∑ k ∈ Finset.range L, 2 * (cos (a * (k * (2 * π / L))) * sin (b * (k * (2 * π / L)))) = 0 := by
    have e : ∑ k ∈ Finset.range L, 2 * (cos (a * (k * (2 * π / L))) * sin (b * (k * (2 * π / L))))
        = ∑ k ∈ Finset.range L, sin (((a + b : ℤ) : ℝ) * (k * (2 * π / L)))
          - ∑ k ∈ Finset.range L, sin (((a - b : ℤ) : ℝ) * (k * (2 * π / L))) := by
      rw [← Finset.sum_sub_distrib]
      refine Finset.sum_congr rfl fun k _ => ?_
      push_cast; rw [add_mul, sub_mul, sin_add, sin_sub]; ring
    rw [e, hsin _ hab, hsin _ hab', sub_zero]
  rcases lt_trichotomy m 0 with hm | hm | hm <;> rcases lt_trichotomy m' 0 with hm' | hm' | hm'
  · simp only [azF_neg hm, azF_neg hm', ca, cb]
    have e : ∀ k ∈ Finset.range L, √2 * sin (a * (k * (2 * π / L))) * (√2 * sin (b * (k * (2 * π / L))))
        = 2 * (sin (a * (k * (2 * π / L))) * sin (b * (k * (2 * π / L)))) := fun k _ => by
      linear_combination (sin (a * (k * (2 * π / L))) * sin (b * (k * (2 * π / L)))) * h2
    rw [Finset.sum_congr rfl e, pss]
    rw [if_neg (show ¬ a + b = 0 by omega)]
    by_cases hh : m = m'
    · rw [if_pos (show a - b = 0 by omega), if_pos hh]; ring
    · rw [if_neg (show ¬ a - b = 0 by omega), if_neg hh]; ring
  · subst hm'; simp only [azF_neg hm, azF_zero, ca]
    rw [if_neg (show ¬ m = 0 by omega)]
    simp only [mul_one]
    rw [← Finset.mul_sum, hsin _ haL, mul_zero]
  · simp only [azF_neg hm, azF_pos hm', ca, cb]
    rw [if_neg (show ¬ m = m' by omega)]
    have e : ∀ k ∈ Finset.range L, √2 * sin (a * (k * (2 * π / L))) * (√2 * cos (b * (k * (2 * π / L))))
        = 2 * (sin (a * (k * (2 * π / L))) * cos (b * (k * (2 * π / L)))) := fun k _ => by
      linear_combination (sin (a * (k * (2 * π / L))) * cos (b * (k * (2 * π / L)))) * h2
    rw [Finset.sum_congr rfl e, psc]
  · subst hm; simp only [azF_zero, azF_neg hm', cb]
    rw [if_neg (show ¬ 0 = m' by omega)]
    simp only [one_mul]
    rw [← Finset.mul_sum, hsin _ hbL, mul_zero]
  · subst hm; subst hm'; simp only [azF_zero]
    simp
  · subst hm; simp only [azF_zero, azF_pos hm', cb]
    rw [if_neg (show ¬ 0 = m' by omega)]
    simp only [one_mul]
    rw [← Finset.mul_sum, hcos _ hbL, if_neg (show ¬ b = 0 by omega), mul_zero]
  · simp only [azF_pos hm, azF_neg hm', ca, cb]
    rw [if_neg (show ¬ m = m' by omega)]
    have e : ∀ k ∈ Finset.range L, √2 * cos (a * (k * (2 * π / L))) * (√2 * sin (b * (k * (2 * π / L))))
        = 2 * (cos (a * (k * (2 * π / L))) * sin (b * (k * (2 * π / L)))) := fun k _ => by
      linear_combination (cos (a * (k * (2 * π / L))) * sin (b * (k * (2 * π / L)))) * h2
    rw [Finset.sum_congr rfl e, pcs]
  · subst hm'; simp only [azF_pos hm, azF_zero, ca]
    rw [if_neg (show ¬ m = 0 by omega)]
    simp only [mul_one]
    rw [← Finset.mul_sum, hcos _ haL, if_neg (show ¬ a = 0 by omega), mul_zero]
  · simp only [azF_pos hm, azF_pos hm', ca, cb]
    have e : ∀ k ∈ Finset.range L, √2 * cos (a * (k * (2 * π / L))) * (√2 * cos (b * (k * (2 * π / L))))
        = 2 * (cos (a * (k * (2 * π / L))) * cos (b * (k * (2 * π / L)))) := fun k _ => by
      linear_combination (cos (a * (k * (2 * π / L))) * cos (b * (k * (2 * π / L)))) * h2
    rw [Finset.sum_congr rfl e, pcc]
    rw [if_neg (show ¬ a + b = 0 by omega)]
    by_cases hh : m = m'
    · rw [if_pos (show a - b = 0 by omega), if_pos hh]; ring
    · rw [if_neg (show ¬ a - b = 0 by omega), if_neg hh]; ring

/-- Polar factor of the real harmonics. -/
noncomputable def polF (n k : ℕ) (x : ℝ) : ℝ :=
  √((2 * n + 1) / (4 * π) * ((n - k).factorial / (n + k).factorial)) * (√(1 - x ^ 2) ^ k * (derivative^[k] (legPoly n)).eval x)

theorem realSH_factor (n : ℕ) (m : ℤ) (azi zen : ℝ) :
    realSH n m azi zen = polF n m.natAbs (cos zen) * azF m azi := by
  have hneg : ∀ k : ℕ, ((-1 : ℝ) ^ k) * (-1) ^ k = 1 := fun k => by rw [← mul_pow]; norm_num
  have hre : ∀ (r t : ℝ), ((r : ℂ) * Complex.exp ((t : ℝ) * Complex.I)).re = r * cos t := by
    intro r t
    rw [Complex.re_ofReal_mul, Complex.exp_ofReal_mul_I_re]
  have him : ∀ (r t : ℝ), ((r : ℂ) * Complex.exp ((t : ℝ) * Complex.I)).im = r * sin t := by
    intro r t
    rw [Complex.im_ofReal_mul, Complex.exp_ofReal_mul_I_im]
  unfold realSH azF polF
  rcases lt_trichotomy m 0 with hm | hm | hm
  · rw [if_neg (by omega), if_pos hm, if_neg (by omega), if_pos hm]
    unfold sphHarm
    rw [if_pos (abs_nonneg m), Int.natAbs_abs, sphHarmNonneg, him, assocLegendre]
    have := hneg m.natAbs
    linear_combination (√2 * √((2 * n + 1) / (4 * π) * ((n - m.natAbs).factorial / (n + m.natAbs).factorial)) * (√(1 - cos zen ^ 2) ^ m.natAbs
      * (derivative^[m.natAbs] (legPoly n)).eval (cos zen)) * sin (m.natAbs * azi)) * this
  · subst hm
    rw [if_pos rfl, if_pos rfl]
    unfold sphHarm
    rw [if_pos (le_refl _), Int.natAbs_zero, sphHarmNonneg, hre, assocLegendre]
    simp
  · rw [if_neg (by omega), if_neg (by omega), if_neg (by omega), if_neg (by omega)]
    unfold sphHarm
    rw [if_pos (abs_nonneg m), Int.natAbs_abs, sphHarmNonneg, hre, assocLegendre]
    have := hneg m.natAbs
    linear_combination (√2 * √((2 * n + 1) / (4 * π) * ((n - m.natAbs).factorial / (n + m.natAbs).factorial)) * (√(1 - cos zen ^ 2) ^ m.natAbs
      * (derivative^[m.natAbs] (legPoly n)).eval (cos zen)) * cos (m.natAbs * azi)) * this

theorem polF_mul (n n' k : ℕ) (x : ℝ) (hx : |x| ≤ 1) : polF n k x * polF n' k x
    = √((2 * n + 1) / (4 * π) * ((n - k).factorial / (n + k).factorial))
      * √((2 * n' + 1) / (4 * π) * ((n' - k).factorial / (n' + k).factorial))
      * ((1 - X ^ 2) ^ k * derivative^[k] (legPoly n) * derivative^[k] (legPoly n')).eval x := by
  have h : √(1 - x ^ 2) * √(1 - x ^ 2) = 1 - x ^ 2 := Real.mul_self_sqrt (by
    have := abs_le.1 hx; nlinarith)
  have hk : √(1 - x ^ 2) ^ k * √(1 - x ^ 2) ^ k = (1 - x ^ 2) ^ k := by rw [← mul_pow, h]
  unfold polF
  simp only [eval_mul, eval_pow, eval_sub, eval_one, eval_X]
  rw [← hk]; ring

/-- Polar sums: a rule that integrates polynomials of degree `n + n'` exactly up to a factor `c`. -/
theorem polF_orth {P : ℕ} (x w : ℕ → ℝ) (c : ℝ) (D : ℕ) (hx : ∀ i < P, |x i| ≤ 1)
    (hex : ∀ p : ℝ[X], p.natDegree ≤ D → ∑ i ∈ Finset.range P, w i * p.eval (x i) = c * J p)
    (n n' k : ℕ) (hk : k ≤ n) (hk' : k ≤ n') (hD : n + n' ≤ D) :
    ∑ i ∈ Finset.range P, w i * (polF n k (x i) * polF n' k (x i)) = if n = n' then c / (2 * π) else 0 := by
  set A := √((2 * n + 1) / (4 * π) * ((n - k).factorial / (n + k).factorial)) with hA
  set B := √((2 * n' + 1) / (4 * π) * ((n' - k).factorial / (n' + k).factorial)) with hB
  have e : ∀ i ∈ Finset.range P, w i * (polF n k (x i) * polF n' k (x i))
      = A * B * (w i * ((1 - X ^ 2) ^ k * derivative^[k] (legPoly n) * derivative^[k] (legPoly n')).eval (x i)) := by
    intro i hi
    rw [polF_mul n n' k _ (hx i (Finset.mem_range.1 hi))]; ring
  rw [Finset.sum_congr rfl e, ← Finset.mul_sum, hex _ ((natDegree_Jm k n n' hk hk').trans hD)]
  have hj := Jm_eq k n n' hk
  unfold Jm at hj
  rw [hj]
  by_cases h : n = n'
  · subst h
    rw [if_pos rfl, if_pos rfl]
    have hAB : A * B = (2 * n + 1) / (4 * π) * ((n - k).factorial / (n + k).factorial) :=
      Real.mul_self_sqrt (by positivity)
    rw [hAB]
    have h1 : ((n - k).factorial : ℝ) ≠ 0 := by positivity
    have h2 : ((n + k).factorial : ℝ) ≠ 0 := by positivity
    have h3 := pi_ne_zero
    field_simp
    ring
  · rw [if_neg h, if_neg h]; ring

/-- Discrete orthonormality of the real harmonics on a product grid. -/
theorem product_grid_orth {P L : ℕ} (z w : ℕ → ℝ) (c : ℝ) (D : ℕ)
    (hex : ∀ p : ℝ[X], p.natDegree ≤ D → ∑ i ∈ Finset.range P, w i * p.eval (cos (z i)) = c * J p)
    (n n' : ℕ) (m m' : ℤ) (hm : |m| ≤ n) (hm' : |m'| ≤ n') (hn : n + n' ≤ D) (hL : |m| + |m'| < L) :
    ∑ i ∈ Finset.range P, ∑ k ∈ Finset.range L, w i * (realSH n m (k * (2 * π / L)) (z i) * realSH n' m' (k * (2 * π / L)) (z i))
      = if n = n' ∧ m = m' then L * c / (2 * π) else 0 := by
  have hmn : m.natAbs ≤ n := by rw [Int.abs_eq_natAbs] at hm; omega
  have hmn' : m'.natAbs ≤ n' := by rw [Int.abs_eq_natAbs] at hm'; omega
  have e : ∀ i ∈ Finset.range P, ∑ k ∈ Finset.range L, w i * (realSH n m (k * (2 * π / L)) (z i) * realSH n' m' (k * (2 * π / L)) (z i))
      = w i * (polF n m.natAbs (cos (z i)) * polF n' m'.natAbs (cos (z i))) * if m = m' then (L : ℝ) else 0 := by
    intro i _
    rw [← azF_orth (L := L) (m := m) (m' := m') hL, Finset.mul_sum]
    refine Finset.sum_congr rfl fun k _ => ?_
    rw [realSH_factor, realSH_factor]; ring
  rw [Finset.sum_congr rfl e, ← Finset.sum_mul]
  by_cases h : m = m'
  · subst h
    rw [polF_orth (fun i => cos (z i)) w c D (fun i _ => abs_cos_le_one _) hex n n' _ hmn hmn' hn, if_pos rfl]
    by_cases hnn : n = n'
    · rw [if_pos hnn, if_pos ⟨hnn, rfl⟩]; ring
    · rw [if_neg hnn, if_neg (fun h => hnn h.1)]; ring
  · rw [if_neg h, if_neg (fun hh => h hh.2)]; ring

end Verif.Sph
