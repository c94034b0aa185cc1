import Verif.Proofs.Quadrature

/-!
Exactness of the polar rule of `equal_angle` on polynomials of degree at most `2n+1`, through Chebyshev polynomials.
-/

namespace Verif.Sph
open Real Polynomial

theorem list_sum_range (f : ℕ → ℝ) (n : ℕ) : ((List.range n).map f).sum = ∑ k ∈ Finset.range n, f k := rfl

theorem J_T_of_odd {j : ℤ} (h : Odd j) : J (Chebyshev.T ℝ j) = 0 := by
  have key : ∀ x : ℝ, (Chebyshev.T ℝ j).eval (-x) = -(Chebyshev.T ℝ j).eval x := by
    intro x
    rw [Chebyshev.T_eval_neg, Int.negOnePow_odd _ h]; simp
  have h2 : J (Chebyshev.T ℝ j) = ∫ x in (-1 : ℝ)..1, (Chebyshev.T ℝ j).eval (-x) := by
    rw [intervalIntegral.integral_comp_neg (fun x => (Chebyshev.T ℝ j).eval x)]
    simp [J]
  simp only [key] at h2
  rw [intervalIntegral.integral_neg] at h2
  have : J (Chebyshev.T ℝ j) = ∫ x in (-1 : ℝ)..1, (Chebyshev.T ℝ j).eval x := rfl
  linarith

theorem J_T_of_even {j : ℤ} (h : Even j) : J (Chebyshev.T ℝ j) = 1 / (j + 1) - 1 / (j - 1) := by
  have hj1 : (j : ℝ) + 1 ≠ 0 := by
    have : j + 1 ≠ 0 := by rintro h'; obtain ⟨k, hk⟩ := h; omega
    exact_mod_cast this
  have hj2 : (j : ℝ) - 1 ≠ 0 := by
    have : j - 1 ≠ 0 := by rintro h'; obtain ⟨k, hk⟩ := h; omega
    exact_mod_cast this
  have e1 : Odd (j + 1) := h.add_one
  have e2 : Odd (j - 1) := by obtain ⟨k, hk⟩ := h; exact ⟨k - 1, by omega⟩
  have d : C (2 : ℝ) * Chebyshev.T ℝ j = derivative (C (1 / ((j : ℝ) + 1)) * Chebyshev.T ℝ (j + 1) - C (1 / ((j : ℝ) - 1)) * Chebyshev.T ℝ (j - 1)) := by
    rw [derivative_sub, derivative_C_mul, derivative_C_mul, Chebyshev.T_derivative_eq_U, Chebyshev.T_derivative_eq_U]
    have h2 := Chebyshev.two_mul_T_eq_U_sub_U ℝ (j - 2)
    rw [show j - 2 + 2 = j by ring] at h2
    rw [show j + 1 - 1 = j by ring, show j - 1 - 1 = j - 2 by ring]
    have c1 : C (1 / ((j : ℝ) + 1)) * ((j + 1 : ℤ) : ℝ[X]) = 1 := by
      rw [show ((j + 1 : ℤ) : ℝ[X]) = C ((j : ℝ) + 1) by simp, ← C_mul, one_div_mul_cancel hj1, C_1]
    have c2 : C (1 / ((j : ℝ) - 1)) * ((j - 1 : ℤ) : ℝ[X]) = 1 := by
      rw [show ((j - 1 : ℤ) : ℝ[X]) = C ((j : ℝ) - 1) by simp, ← C_mul, one_div_mul_cancel hj2, C_1]
    rw [← mul_assoc, ← mul_assoc, c1, c2, show (C (2 : ℝ)) = 2 from rfl, h2]; ring
  have hJ : 2 * J (Chebyshev.T ℝ j) = 2 * (1 / (j + 1) - 1 / (j - 1)) := by
    rw [← J_C_mul, d, J_derivative]
    simp only [eval_sub, eval_mul, eval_C, Chebyshev.T_eval_one, Chebyshev.T_eval_neg_one, Int.negOnePow_odd _ e1,
      Int.negOnePow_odd _ e2]
    push_cast; ring
  linarith

/-- The midpoint sum of `sin θ sin(pθ) cos(jθ)`. -/
theorem sum_mid_triple (n : ℕ) (r j : ℕ) (hr : r ≤ n) (hj : j ≤ 2 * n + 1) :
    ∑ i ∈ Finset.range (2 * n + 2), sin (i * (π / ((2 * n + 2 : ℕ) : ℝ)) + π / ((2 * n + 2 : ℕ) : ℝ) / 2)
        * sin ((2 * r + 1) * (i * (π / ((2 * n + 2 : ℕ) : ℝ)) + π / ((2 * n + 2 : ℕ) : ℝ) / 2))
        * cos (j * (i * (π / ((2 * n + 2 : ℕ) : ℝ)) + π / ((2 * n + 2 : ℕ) : ℝ) / 2))
      = ((2 * n + 2 : ℕ) : ℝ) / 4 * ((if 2 * r + j = 0 then 1 else 0) + (if 2 * r = j then 1 else 0) - if 2 * r + 2 = j then 1 else 0) := by
  set M := 2 * n + 2 with hM
  have c1 := sum_cos_mid (M := M) (j := 2 * r + j) (by rw [abs_of_nonneg (by omega)]; omega)
  have c2 := sum_cos_mid (M := M) (j := 2 * r - j) (by rw [abs_lt]; omega)
  have c3 := sum_cos_mid (M := M) (j := 2 * r + 2 + j) (by rw [abs_of_nonneg (by omega)]; omega)
  have c4 := sum_cos_mid (M := M) (j := 2 * r + 2 - j) (by rw [abs_lt]; omega)
  have key : ∀ i ∈ Finset.range M, sin (i * (π / (M : ℝ)) + π / (M : ℝ) / 2)
        * sin ((2 * r + 1) * (i * (π / (M : ℝ)) + π / (M : ℝ) / 2))
        * cos (j * (i * (π / (M : ℝ)) + π / (M : ℝ) / 2))
      = 1 / 4 * (cos (((2 * r + j : ℤ) : ℝ) * (i * (π / (M : ℝ)) + π / (M : ℝ) / 2))
        + cos (((2 * r - j : ℤ) : ℝ) * (i * (π / (M : ℝ)) + π / (M : ℝ) / 2))
        - cos (((2 * r + 2 + j : ℤ) : ℝ) * (i * (π / (M : ℝ)) + π / (M : ℝ) / 2))
        - cos (((2 * r + 2 - j : ℤ) : ℝ) * (i * (π / (M : ℝ)) + π / (M : ℝ) / 2))) := by
    intro i _
    set t := (i * (π / (M : ℝ)) + π / (M : ℝ) / 2)
    have a1 : cos (((2 * r + j : ℤ) : ℝ) * t) + cos (((2 * r - j : ℤ) : ℝ) * t) = 2 * (cos (2 * r * t) * cos (j * t)) := by
      push_cast; rw [add_mul, sub_mul, cos_add, cos_sub]; ring
    have a2 : cos (((2 * r + 2 + j : ℤ) : ℝ) * t) + cos (((2 * r + 2 - j : ℤ) : ℝ) * t)
        = 2 * (cos ((2 * r + 2) * t) * cos (j * t)) := by
      push_cast; rw [add_mul _ (j : ℝ), sub_mul _ (j : ℝ), cos_add, cos_sub]; ring
    have a3 : cos (2 * r * t) - cos ((2 * r + 2) * t) = 2 * (sin t * sin ((2 * r + 1) * t)) := by
      rw [show 2 * r * t = (2 * r + 1) * t - t by ring, show (2 * r + 2) * t = (2 * r + 1) * t + t by ring, cos_add, cos_sub]
      ring
    linear_combination (-1 / 4) * a1 + (1 / 4) * a2 + (-1 / 2 * cos (j * t)) * a3
  rw [Finset.sum_congr rfl key, ← Finset.mul_sum, Finset.sum_sub_distrib, Finset.sum_sub_distrib, Finset.sum_add_distrib,
    c1, c2, c3, c4]
  rw [if_neg (show ¬ (2 * (r : ℤ) + 2 + j = 0) by omega)]
  have i1 : (2 * (r : ℤ) + j = 0) ↔ (2 * r + j = 0) := by omega
  have i2 : (2 * (r : ℤ) - j = 0) ↔ (2 * r = j) := by omega
  have i3 : (2 * (r : ℤ) + 2 - j = 0) ↔ (2 * r + 2 = j) := by omega
  simp only [i1, i2, i3]
  split_ifs <;> ring

theorem equalAngle_T (n j : ℕ) (hj : j ≤ 2 * n + 1) :
    ∑ i ∈ Finset.range (2 * n + 2), Grids.equalAngleWeight n (i * (π / ((2 * n + 2 : ℕ) : ℝ)) + π / ((2 * n + 2 : ℕ) : ℝ) / 2)
        * (Chebyshev.T ℝ j).eval (cos (i * (π / ((2 * n + 2 : ℕ) : ℝ)) + π / ((2 * n + 2 : ℕ) : ℝ) / 2))
      = π * J (Chebyshev.T ℝ j) := by
  have hw : ∀ t : ℝ, Grids.equalAngleWeight n t * (Chebyshev.T ℝ j).eval (cos t)
      = ∑ r ∈ Finset.range (n + 1), 2 * π / (n + 1) * (1 / (2 * r + 1)) * (sin t * sin ((2 * r + 1) * t) * cos (j * t)) := by
    intro t
    unfold Grids.equalAngleWeight
    rw [list_sum_range, Chebyshev.T_real_cos, Finset.mul_sum, Finset.sum_mul]
    refine Finset.sum_congr rfl fun r _ => ?_
    push_cast; ring
  simp only [hw]
  rw [Finset.sum_comm]
  have e : ∀ r ∈ Finset.range (n + 1), ∑ i ∈ Finset.range (2 * n + 2), 2 * π / (n + 1) * (1 / (2 * (r : ℝ) + 1))
        * (sin (i * (π / ((2 * n + 2 : ℕ) : ℝ)) + π / ((2 * n + 2 : ℕ) : ℝ) / 2)
        * sin ((2 * r + 1) * (i * (π / ((2 * n + 2 : ℕ) : ℝ)) + π / ((2 * n + 2 : ℕ) : ℝ) / 2))
        * cos (j * (i * (π / ((2 * n + 2 : ℕ) : ℝ)) + π / ((2 * n + 2 : ℕ) : ℝ) / 2)))
      = π * (1 / (2 * (r : ℝ) + 1) * ((if 2 * r + j = 0 then 1 else 0) + (if 2 * r = j then 1 else 0) - if 2 * r + 2 = j then 1 else 0)) := by
    intro r hr
    rw [← Finset.mul_sum, sum_mid_triple n r j (by have := Finset.mem_range.1 hr; omega) hj]
    have : (n : ℝ) + 1 ≠ 0 := by positivity
    push_cast
    field_simp
    ring
  rw [Finset.sum_congr rfl e, ← Finset.mul_sum]
  congr 1
  rcases Nat.even_or_odd' j with ⟨k, hk | hk⟩
  · rw [J_T_of_even ⟨k, by omega⟩]
    rcases Nat.eq_zero_or_pos k with h0 | h0
    · subst h0
      have hj0 : j = 0 := by omega
      subst hj0
      rw [Finset.sum_eq_single 0]
      · norm_num
      · intro b _ hb
        rw [if_neg (by omega), if_neg (by omega), if_neg (by omega)]; ring
      · intro h; exact absurd (Finset.mem_range.2 (by omega)) h
    · obtain ⟨k', rfl⟩ : ∃ k', k = k' + 1 := ⟨k - 1, by omega⟩
      have hsplit : ∀ r ∈ Finset.range (n + 1), 1 / (2 * (r : ℝ) + 1) * ((if 2 * r + j = 0 then 1 else 0) + (if 2 * r = j then 1 else 0) - if 2 * r + 2 = j then 1 else 0)
          = (if r = k' + 1 then 1 / (2 * (r : ℝ) + 1) else 0) - if r = k' then 1 / (2 * (r : ℝ) + 1) else 0 := by
        intro r _
        have i1 : (2 * r = j) ↔ r = k' + 1 := by omega
        have i2 : (2 * r + 2 = j) ↔ r = k' := by omega
        rw [if_neg (by omega)]
        simp only [i1, i2]
        split_ifs <;> ring
      rw [Finset.sum_congr rfl hsplit, Finset.sum_sub_distrib, Finset.sum_ite_eq', Finset.sum_ite_eq',
        if_pos (Finset.mem_range.2 (by omega)), if_pos (Finset.mem_range.2 (by omega))]
      rw [hk]; push_cast
      congr 2 <;> ring
  · rw [J_T_of_odd ⟨k, by omega⟩]
    refine Finset.sum_eq_zero fun r _ => ?_
    rw [if_neg (by omega), if_neg (by omega), if_neg (by omega)]; ring

/-- The polar rule of `equal_angle` is exact on polynomials of degree at most `2n+1`. -/
theorem equalAngle_exact (n : ℕ) (p : ℝ[X]) (hp : p.natDegree ≤ 2 * n + 1) :
    ∑ i ∈ Finset.range (2 * n + 2), Grids.equalAngleWeight n (i * (π / ((2 * n + 2 : ℕ) : ℝ)) + π / ((2 * n + 2 : ℕ) : ℝ) / 2)
        * p.eval (cos (i * (π / ((2 * n + 2 : ℕ) : ℝ)) + π / ((2 * n + 2 : ℕ) : ℝ) / 2))
      = π * J p := by
  have hmem : p ∈ degreeLE ℝ ((2 * n + 1 : ℕ) : WithBot ℕ) := by
    rw [mem_degreeLE]; exact natDegree_le_iff_degree_le.1 hp
  rw [← Sequence.span_degreeLE (Chebyshev.chebyshevTsequence ℝ) (m := 2 * n + 1) (fun i _ => by
    rw [isUnit_iff_ne_zero, Ne, leadingCoeff_eq_zero]; exact Sequence.ne_zero _ _)] at hmem
  clear hp
  induction hmem using Submodule.span_induction with
  | mem x hx =>
    obtain ⟨j, hj, rfl⟩ := hx
    exact equalAngle_T n j (by simpa using hj)
  | zero => simp [J]
  | add x y _ _ hx hy =>
    simp only [eval_add, mul_add, Finset.sum_add_distrib, J_add]
    rw [hx, hy]
  | smul a x _ hx =>
    rw [smul_eq_C_mul, J_C_mul]
    simp only [eval_mul, eval_C]
    rw [mul_left_comm π a, ← hx, Finset.mul_sum]
    exact Finset.sum_congr rfl fun i _ => by ring

end Verif.Sph
