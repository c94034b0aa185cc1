import Verif.Model.Utils
import Mathlib.Tactic

/-! Helper lemmas for the utils properties. -/

namespace Verif.Utils
open Real Matrix

theorem pyMod_add_int_mul (x y : ℝ) (hy : y ≠ 0) (k : ℤ) : pyMod (x + k * y) y = pyMod x y := by
  unfold pyMod
  have : (x + k * y) / y = x / y + k := by field_simp
  rw [this, Int.floor_add_intCast]
  push_cast; ring

theorem pyMod_nonneg (x y : ℝ) (hy : 0 < y) : 0 ≤ pyMod x y := by
  unfold pyMod
  have := Int.floor_le (x / y)
  rw [le_div_iff₀ hy] at this
  linarith

theorem pyMod_lt (x y : ℝ) (hy : 0 < y) : pyMod x y < y := by
  unfold pyMod
  have := Int.lt_floor_add_one (x / y)
  rw [div_lt_iff₀ hy] at this
  linarith

theorem pyMod_eq_self (x y : ℝ) (h0 : 0 ≤ x) (h1 : x < y) : pyMod x y = x := by
  unfold pyMod
  have hy : 0 < y := lt_of_le_of_lt h0 h1
  have : ⌊x / y⌋ = 0 := by
    rw [Int.floor_eq_zero_iff]
    exact ⟨div_nonneg h0 hy.le, (div_lt_one hy).2 h1⟩
  rw [this]; simp

theorem exists_pyMod (x y : ℝ) : ∃ k : ℤ, pyMod x y = x + k * y :=
  ⟨-⌊x / y⌋, by unfold pyMod; push_cast; ring⟩

theorem cos_pyMod (x : ℝ) : cos (pyMod x (2 * π)) = cos x := by
  obtain ⟨k, hk⟩ := exists_pyMod x (2 * π)
  rw [hk, cos_add_int_mul_two_pi]

theorem sin_pyMod (x : ℝ) : sin (pyMod x (2 * π)) = sin x := by
  obtain ⟨k, hk⟩ := exists_pyMod x (2 * π)
  rw [hk, sin_add_int_mul_two_pi]

theorem radius_pos {x y z : ℝ} (h : (x, y, z) ≠ (0, 0, 0)) : 0 < √(x ^ 2 + y ^ 2 + z ^ 2) := by
  apply Real.sqrt_pos.2
  by_contra hn
  push Not at hn
  have hx : x = 0 := by nlinarith [sq_nonneg x, sq_nonneg y, sq_nonneg z]
  have hy : y = 0 := by nlinarith [sq_nonneg x, sq_nonneg y, sq_nonneg z]
  have hz : z = 0 := by nlinarith [sq_nonneg x, sq_nonneg y, sq_nonneg z]
  exact h (by rw [hx, hy, hz])

theorem norm_mk (x y : ℝ) : ‖(⟨x, y⟩ : ℂ)‖ = √(x ^ 2 + y ^ 2) := by
  rw [Complex.norm_def, Complex.normSq_mk]; congr 1; ring

theorem sqrt_mul_cos_arctan2 (x y : ℝ) : √(x ^ 2 + y ^ 2) * cos (arctan2 y x) = x := by
  rw [← norm_mk]; exact Complex.norm_mul_cos_arg _

theorem sqrt_mul_sin_arctan2 (x y : ℝ) : √(x ^ 2 + y ^ 2) * sin (arctan2 y x) = y := by
  rw [← norm_mk]; exact Complex.norm_mul_sin_arg _

theorem abs_z_le (x y z : ℝ) : |z| ≤ √(x ^ 2 + y ^ 2 + z ^ 2) := by
  apply Real.abs_le_sqrt; nlinarith [sq_nonneg x, sq_nonneg y]

theorem radius_mul_sin (x y z : ℝ) (h : 0 < √(x ^ 2 + y ^ 2 + z ^ 2)) :
    √(x ^ 2 + y ^ 2 + z ^ 2) * sin (arccos (z / √(x ^ 2 + y ^ 2 + z ^ 2))) = √(x ^ 2 + y ^ 2) := by
  set r := √(x ^ 2 + y ^ 2 + z ^ 2) with hr
  have hr2 : r ^ 2 = x ^ 2 + y ^ 2 + z ^ 2 := Real.sq_sqrt (by positivity)
  rw [Real.sin_arccos]
  have : 1 - (z / r) ^ 2 = (x ^ 2 + y ^ 2) / r ^ 2 := by
    field_simp; linarith
  rw [this, Real.sqrt_div (by positivity), Real.sqrt_sq h.le]
  field_simp

theorem radius_mul_cos (x y z : ℝ) (h : 0 < √(x ^ 2 + y ^ 2 + z ^ 2)) :
    √(x ^ 2 + y ^ 2 + z ^ 2) * cos (arccos (z / √(x ^ 2 + y ^ 2 + z ^ 2))) = z := by
  have hz := abs_z_le x y z
  rw [abs_le] at hz
  rw [Real.cos_arccos]
  · field_simp
  · rw [le_div_iff₀ h]; linarith
  · rw [div_le_one h]; linarith

end Verif.Utils
