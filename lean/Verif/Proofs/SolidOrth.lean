import Verif.Proofs.SolidRot3

/-!
Orthogonality of the matrices of the recursion.
-/

namespace Verif.Solid
open Finset Nat Real MvPolynomial

theorem rowU_sq {l : ℕ} {m : ℤ} (hm : |m| ≤ (l : ℤ)) : rowU l m * rowU l m = (l : ℝ) * l - m * m := by
  unfold rowU
  rw [Real.mul_self_sqrt]
  have h : |(m : ℝ)| ≤ l := by exact_mod_cast hm
  have := mul_self_le_mul_self (abs_nonneg _) h
  rw [abs_mul_abs_self] at this
  linarith

theorem rowV_sq {l : ℕ} (hl : 1 ≤ l) (m : ℤ) :
    rowV l m * rowV l m = (if m = 0 then 2 else 1) * (((l : ℝ) + |(m : ℝ)| - 1) * ((l : ℝ) + |(m : ℝ)|)) * (1 / 4) := by
  unfold rowV
  have h1 : (1 : ℝ) ≤ l := by exact_mod_cast hl
  have h2 := abs_nonneg (m : ℝ)
  have h3 : 0 ≤ ((l : ℝ) + |(m : ℝ)| - 1) * ((l : ℝ) + |(m : ℝ)|) := mul_nonneg (by linarith) (by linarith)
  split_ifs
  · have := Real.mul_self_sqrt (show 0 ≤ (1 + 1) * ((l : ℝ) + |(m : ℝ)| - 1) * ((l : ℝ) + |(m : ℝ)|) by linarith)
    linear_combination (1 / 4) * this
  · have := Real.mul_self_sqrt (show 0 ≤ (1 + 0) * ((l : ℝ) + |(m : ℝ)| - 1) * ((l : ℝ) + |(m : ℝ)|) by linarith)
    linear_combination (1 / 4) * this

theorem rowW_sq {l : ℕ} {m : ℤ} (hm : |m| ≤ (l : ℤ)) (h0 : m ≠ 0) :
    rowW l m * rowW l m = (((l : ℝ) - |(m : ℝ)| - 1) * ((l : ℝ) - |(m : ℝ)|)) * (1 / 4) := by
  unfold rowW
  rw [if_neg h0]
  have h3 : 0 ≤ ((l : ℝ) - |(m : ℝ)| - 1) * ((l : ℝ) - |(m : ℝ)|) := by
    rcases eq_or_lt_of_le hm with h | h
    · have : |(m : ℝ)| = l := by exact_mod_cast h
      rw [this]; simp
    · have : |(m : ℝ)| + 1 ≤ l := by exact_mod_cast h
      exact mul_nonneg (by linarith) (by linarith)
  have := Real.mul_self_sqrt h3
  linear_combination (1 / 4) * this

set_option maxHeartbeats 2000000 in
/-- The rows of the recursion are orthogonal vectors of length `√((l+1)(2l+1))`. -/
theorem row_orth (l : ℕ) (m m' : ℤ) (hm : |m| ≤ (l : ℤ) + 1) (hm' : |m'| ≤ (l : ℤ) + 1) :
    rowComb (l + 1) m (fun i a => G l i m' a) = if m = m' then ((l : ℝ) + 1) * (2 * l + 1) else 0 := by
  have hs := two_sqrt_two
  have hab : |m| ≤ ((l + 1 : ℕ) : ℤ) := by push_cast; exact hm
  by_cases he : m = m'
  · subst he
    rw [if_pos rfl]
    have hU := rowU_sq hab
    have hV := rowV_sq (show 1 ≤ l + 1 by omega) m
    push_cast at hU hV
    rcases lt_trichotomy m 0 with h0 | h0 | h0
    · have hW := rowW_sq hab (by omega)
      have ha : |(m : ℝ)| = -m := abs_of_neg (by exact_mod_cast h0)
      rw [if_neg (by omega)] at hV
      rw [ha] at hV hW
      push_cast at hW
      by_cases h1 : m = -1
      · subst h1
        unfold G rowComb combV combW
        simp [fin_ne, smul_eq_mul]
        push_cast at hU hV hW
        linear_combination hU + 2 * hV + 2 * hW + (rowV (l + 1) (-1) * rowV (l + 1) (-1)) * hs
      · unfold G rowComb combV combW
        simp (disch := omega) only [if_pos, if_neg, fin_ne.1, fin_ne.2.1, fin_ne.2.2.1, fin_ne.2.2.2, smul_eq_mul,
          true_and, false_and, and_true, if_false, if_true]
        linear_combination hU + 2 * hV + 2 * hW
    · subst h0
      unfold G rowComb combV combW
      simp [fin_ne, smul_eq_mul]
      simp at hU hV
      linear_combination hU + 2 * hV
    · have hW := rowW_sq hab (by omega)
      have ha : |(m : ℝ)| = m := abs_of_pos (by exact_mod_cast h0)
      rw [if_neg (by omega)] at hV
      rw [ha] at hV hW
      push_cast at hW
      by_cases h1 : m = 1
      · subst h1
        unfold G rowComb combV combW
        simp [fin_ne, smul_eq_mul]
        push_cast at hU hV hW
        linear_combination hU + 2 * hV + 2 * hW + (rowV (l + 1) 1 * rowV (l + 1) 1) * hs
      · unfold G rowComb combV combW
        simp (disch := omega) only [if_pos, if_neg, fin_ne.1, fin_ne.2.1, fin_ne.2.2.1, fin_ne.2.2.2, smul_eq_mul,
          true_and, false_and, and_true, if_false, if_true]
        linear_combination hU + 2 * hV + 2 * hW
  · rw [if_neg he]
    have hc : m = 0 ∨ m = 1 ∨ m = -1 ∨ 1 < m ∨ m < -1 := by omega
    have hc' : m' = 0 ∨ m' = 1 ∨ m' = -1 ∨ 1 < m' ∨ m' < -1 := by omega
    have hr : m' = m + 2 ∨ m = m' + 2 ∨ (m' ≠ m + 2 ∧ m ≠ m' + 2) := by omega
    unfold G rowComb combV combW
    rcases hr with h2 | h2 | h2 <;> rcases hc with h | h | h | h | h <;> rcases hc' with h' | h' | h' | h' | h' <;>
      first
      | (exfalso; omega)
      | (simp (disch := omega) only [if_pos, if_neg, fin_ne.1, fin_ne.2.1, fin_ne.2.2.1, fin_ne.2.2.2, smul_eq_mul,
          true_and, false_and, and_true, if_false]
         ring)

end Verif.Solid
