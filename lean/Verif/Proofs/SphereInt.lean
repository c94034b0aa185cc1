import Verif.Proofs.SpherePoly
import Mathlib.Analysis.SpecialFunctions.Integrals.Basic
import Mathlib.MeasureTheory.Integral.IntervalIntegral.IntegrationByParts

/-!
Integrals over the sphere: orthonormality of the real harmonics.
-/

namespace Verif.Sph
open Real

/-- Mean of a function of azimuth and zenith over the unit sphere. -/
noncomputable def sphereMean (f : ℝ → ℝ → ℝ) : ℝ := (∫ a in (0 : ℝ)..(2 * π), ∫ z in (0 : ℝ)..π, f a z * sin z) / (4 * π)

theorem int_cos_mul {j : ℤ} (hj : j ≠ 0) : ∫ x in (0 : ℝ)..(2 * π), cos (j * x) = 0 := by
  have hj' : (j : ℝ) ≠ 0 := by exact_mod_cast hj
  have h := intervalIntegral.integral_eq_sub_of_hasDerivAt (a := 0) (b := 2 * π) (f := fun x => sin (j * x) / j)
    (f' := fun x => cos (j * x)) (fun x _ => by
      have h1 : HasDerivAt (fun x : ℝ => (j : ℝ) * x) j x := by simpa using (hasDerivAt_id x).const_mul (j : ℝ)
      have := (h1.sin).div_const (j : ℝ)
      rwa [mul_div_assoc, div_self hj', mul_one] at this) (Continuous.intervalIntegrable (by fun_prop) _ _)
  rw [h]
  have e : (j : ℝ) * (2 * π) = ((2 * j : ℤ) : ℝ) * π := by push_cast; ring
  simp only [e, sin_int_mul_pi]; simp

theorem int_sin_mul (j : ℤ) : ∫ x in (0 : ℝ)..(2 * π), sin (j * x) = 0 := by
  by_cases hj : j = 0
  · subst hj; simp
  have hj' : (j : ℝ) ≠ 0 := by exact_mod_cast hj
  have h := intervalIntegral.integral_eq_sub_of_hasDerivAt (a := 0) (b := 2 * π) (f := fun x => -(cos (j * x) / j))
    (f' := fun x => sin (j * x)) (fun x _ => by
      have h1 : HasDerivAt (fun x : ℝ => (j : ℝ) * x) j x := by simpa using (hasDerivAt_id x).const_mul (j : ℝ)
      have := ((h1.cos).div_const (j : ℝ)).neg
      rw [mul_div_assoc, div_self hj', mul_one, neg_neg] at this
      exact this) (Continuous.intervalIntegrable (by fun_prop) _ _)
  rw [h]
  have e : (j : ℝ) * (2 * π) = j * (2 * π) := rfl
  simp only [cos_int_mul_two_pi]; simp

theorem azF_continuous (m : ℤ) : Continuous (azF m) := by
  unfold azF
  split_ifs <;> fun_prop

theorem azF_int (m m' : ℤ) : ∫ x in (0 : ℝ)..(2 * π), azF m x * azF m' x = if m = m' then 2 * π else 0 := by
  have h2 : √2 * √2 = (2 : ℝ) := Real.mul_self_sqrt (by norm_num)
  have hcos : ∀ j : ℤ, ∫ x in (0 : ℝ)..(2 * π), cos (j * x) = if j = 0 then 2 * π else 0 := by
    intro j
    split_ifs with h
    · subst h; simp
    · exact int_cos_mul h
  have hint : ∀ j : ℤ, IntervalIntegrable (fun x => cos ((j : ℝ) * x)) MeasureTheory.volume 0 (2 * π) := fun j =>
    Continuous.intervalIntegrable (by fun_prop) _ _
  have hints : ∀ j : ℤ, IntervalIntegrable (fun x => sin ((j : ℝ) * x)) MeasureTheory.volume 0 (2 * π) := fun j =>
    Continuous.intervalIntegrable (by fun_prop) _ _
  rcases lt_trichotomy m 0 with hm | hm | hm <;> rcases lt_trichotomy m' 0 with hm' | hm' | hm'
  · obtain ⟨a, rfl⟩ : ∃ a : ℕ, m = -(a : ℤ) := ⟨m.natAbs, by omega⟩
    obtain ⟨b, rfl⟩ : ∃ b : ℕ, m' = -(b : ℤ) := ⟨m'.natAbs, by omega⟩
    have e : ∀ x, azF (-(a : ℤ)) x * azF (-(b : ℤ)) x = cos (((a - b : ℤ) : ℝ) * x) - cos (((a + b : ℤ) : ℝ) * x) := by
      intro x
      rw [azF_neg hm, azF_neg hm']
      simp only [Int.natAbs_neg, Int.natAbs_natCast]
      push_cast; rw [add_mul, sub_mul, cos_add, cos_sub]
      linear_combination (sin (a * x) * sin (b * x)) * h2
    simp only [e]
    rw [intervalIntegral.integral_sub (hint _) (hint _), hcos, hcos, if_neg (show ¬ (a + b : ℤ) = 0 by omega), sub_zero]
    have : ((a : ℤ) - b = 0) ↔ (-(a : ℤ) = -b) := by omega
    simp only [this]
  · subst hm'
    obtain ⟨a, rfl⟩ : ∃ a : ℕ, m = -(a : ℤ) := ⟨m.natAbs, by omega⟩
    have e : ∀ x, azF (-(a : ℤ)) x * azF 0 x = √2 * sin (((a : ℤ) : ℝ) * x) := by
      intro x; rw [azF_neg hm, azF_zero]; simp
    simp only [e]
    rw [intervalIntegral.integral_const_mul, int_sin_mul, if_neg (by omega), mul_zero]
  · obtain ⟨a, rfl⟩ : ∃ a : ℕ, m = -(a : ℤ) := ⟨m.natAbs, by omega⟩
    obtain ⟨b, rfl⟩ : ∃ b : ℕ, m' = (b : ℤ) := ⟨m'.natAbs, by omega⟩
    have e : ∀ x, azF (-(a : ℤ)) x * azF (b : ℤ) x = sin (((a + b : ℤ) : ℝ) * x) + sin (((a - b : ℤ) : ℝ) * x) := by
      intro x
      rw [azF_neg hm, azF_pos hm']
      simp only [Int.natAbs_neg, Int.natAbs_natCast]
      push_cast; rw [add_mul, sub_mul, sin_add, sin_sub]
      linear_combination (sin (a * x) * cos (b * x)) * h2
    simp only [e]
    rw [intervalIntegral.integral_add (hints _) (hints _), int_sin_mul, int_sin_mul, if_neg (by omega), add_zero]
  · subst hm
    obtain ⟨b, rfl⟩ : ∃ b : ℕ, m' = -(b : ℤ) := ⟨m'.natAbs, by omega⟩
    have e : ∀ x, azF 0 x * azF (-(b : ℤ)) x = √2 * sin (((b : ℤ) : ℝ) * x) := by
      intro x; rw [azF_neg hm', azF_zero]; simp
    simp only [e]
    rw [intervalIntegral.integral_const_mul, int_sin_mul, if_neg (by omega), mul_zero]
  · subst hm hm'
    simp [azF_zero]
  · subst hm
    obtain ⟨b, rfl⟩ : ∃ b : ℕ, m' = (b : ℤ) := ⟨m'.natAbs, by omega⟩
    have e : ∀ x, azF 0 x * azF (b : ℤ) x = √2 * cos (((b : ℤ) : ℝ) * x) := by
      intro x; rw [azF_pos hm', azF_zero]; simp
    simp only [e]
    rw [intervalIntegral.integral_const_mul, hcos, if_neg (by omega), if_neg (by omega), mul_zero]
  · obtain ⟨a, rfl⟩ : ∃ a : ℕ, m = (a : ℤ) := ⟨m.natAbs, by omega⟩
    obtain ⟨b, rfl⟩ : ∃ b : ℕ, m' = -(b : ℤ) := ⟨m'.natAbs, by omega⟩
    have e : ∀ x, azF (a : ℤ) x * azF (-(b : ℤ)) x = sin (((a + b : ℤ) : ℝ) * x) - sin (((a - b : ℤ) : ℝ) * x) := by
      intro x
      rw [azF_pos hm, azF_neg hm']
      simp only [Int.natAbs_neg, Int.natAbs_natCast]
      push_cast; rw [add_mul, sub_mul, sin_add, sin_sub]
      linear_combination (cos (a * x) * sin (b * x)) * h2
    simp only [e]
    rw [intervalIntegral.integral_sub (hints _) (hints _), int_sin_mul, int_sin_mul, if_neg (by omega), sub_zero]
  · subst hm'
    obtain ⟨a, rfl⟩ : ∃ a : ℕ, m = (a : ℤ) := ⟨m.natAbs, by omega⟩
    have e : ∀ x, azF (a : ℤ) x * azF 0 x = √2 * cos (((a : ℤ) : ℝ) * x) := by
      intro x; rw [azF_pos hm, azF_zero]; simp
    simp only [e]
    rw [intervalIntegral.integral_const_mul, hcos, if_neg (by omega), mul_zero]
  · obtain ⟨a, rfl⟩ : ∃ a : ℕ, m = (a : ℤ) := ⟨m.natAbs, by omega⟩
    obtain ⟨b, rfl⟩ : ∃ b : ℕ, m' = (b : ℤ) := ⟨m'.natAbs, by omega⟩
    have e : ∀ x, azF (a : ℤ) x * azF (b : ℤ) x = cos (((a - b : ℤ) : ℝ) * x) + cos (((a + b : ℤ) : ℝ) * x) := by
      intro x
      rw [azF_pos hm, azF_pos hm']
      simp only [Int.natAbs_natCast]
      push_cast; rw [add_mul, sub_mul, cos_add, cos_sub]
      linear_combination (cos (a * x) * cos (b * x)) * h2
    simp only [e]
    rw [intervalIntegral.integral_add (hint _) (hint _), hcos, hcos, if_neg (show ¬ (a + b : ℤ) = 0 by omega), add_zero]
    have : ((a : ℤ) - b = 0) ↔ ((a : ℤ) = b) := by omega
    simp only [this]

theorem int_poly_cos (p : Polynomial ℝ) : ∫ z in (0 : ℝ)..π, p.eval (cos z) * sin z = J p := by
  have h := intervalIntegral.integral_comp_mul_deriv (a := 0) (b := π) (f := cos) (f' := fun z => -sin z) (g := fun x => p.eval x)
    (fun x _ => hasDerivAt_cos x) (by fun_prop) p.continuous
  have e : ∀ z, p.eval (cos z) * sin z = -(((fun x => p.eval x) ∘ cos) z * -sin z) := by intro z; simp
  simp only [e]
  rw [intervalIntegral.integral_neg, h, cos_zero, cos_pi, intervalIntegral.integral_symm]
  simp [J]

theorem polF_int (n n' k : ℕ) (hk : k ≤ n) :
    ∫ z in (0 : ℝ)..π, polF n k (cos z) * polF n' k (cos z) * sin z = if n = n' then 1 / (2 * π) else 0 := by
  have e : ∀ z : ℝ, polF n k (cos z) * polF n' k (cos z) * sin z
      = √((2 * n + 1) / (4 * π) * ((n - k).factorial / (n + k).factorial))
      * √((2 * n' + 1) / (4 * π) * ((n' - k).factorial / (n' + k).factorial))
      * ((((1 - Polynomial.X ^ 2) ^ k * Polynomial.derivative^[k] (legPoly n) * Polynomial.derivative^[k] (legPoly n')).eval (cos z)) * sin z) := by
    intro z
    rw [polF_mul n n' k _ (abs_cos_le_one _)]; ring
  simp only [e]
  rw [intervalIntegral.integral_const_mul, int_poly_cos]
  have hj := Jm_eq k n n' hk
  unfold Jm at hj
  rw [hj]
  by_cases h : n = n'
  · subst h
    rw [if_pos rfl, if_pos rfl, Real.mul_self_sqrt (by positivity)]
    have h1 : ((n - k).factorial : ℝ) ≠ 0 := by positivity
    have h2 : ((n + k).factorial : ℝ) ≠ 0 := by positivity
    have h3 := pi_ne_zero
    field_simp
    ring
  · rw [if_neg h, if_neg h]; ring

/-- Orthonormality of the real harmonics over the sphere. -/
theorem realSH_orthonormal (n n' : ℕ) (m m' : ℤ) (hm : |m| ≤ n) :
    sphereMean (fun a z => realSH n m a z * realSH n' m' a z) = if n = n' ∧ m = m' then 1 / (4 * π) else 0 := by
  unfold sphereMean
  have e : ∀ a : ℝ, ∫ z in (0 : ℝ)..π, realSH n m a z * realSH n' m' a z * sin z
      = azF m a * azF m' a * ∫ z in (0 : ℝ)..π, polF n m.natAbs (cos z) * polF n' m'.natAbs (cos z) * sin z := by
    intro a
    rw [← intervalIntegral.integral_const_mul]
    refine intervalIntegral.integral_congr fun z _ => ?_
    simp only [realSH_factor]; ring
  simp only [e]
  rw [intervalIntegral.integral_mul_const, azF_int]
  by_cases h : m = m'
  · subst h
    rw [polF_int n n' _ (by rw [Int.abs_eq_natAbs] at hm; omega), if_pos rfl]
    have := pi_ne_zero
    by_cases hn : n = n'
    · rw [if_pos hn, if_pos ⟨hn, rfl⟩]; field_simp
    · rw [if_neg hn, if_neg (fun h => hn h.1)]; simp
  · rw [if_neg h, if_neg (fun hh => h hh.2)]; simp

end Verif.Sph
