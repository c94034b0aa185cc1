import Mathlib.Tactic
import Mathlib.RingTheory.Derivation.Basic
import Mathlib.Data.Nat.Factorial.Basic
import Mathlib.Data.Real.Basic

/-!
Divided-power sums `T z w l m = Σ_k w^k z^(l-m-2k) / (k! (k+m)! (l-m-2k)!)` in a commutative real algebra.
With `w = -(x²+y²)/4` they are the zonal factors of the solid harmonics. All recurrences used for the spherical harmonics
are termwise identities.
-/

namespace Verif.Solid
open Finset Nat

variable {A : Type*} [CommRing A] [Algebra ℝ A]

/-- One term of the divided-power sum. -/
noncomputable def term (z w : A) (l m k : ℕ) : A :=
  if m + 2 * k ≤ l then ((k ! * (k + m)! * (l - m - 2 * k)! : ℕ) : ℝ)⁻¹ • (w ^ k * z ^ (l - m - 2 * k)) else 0

/-- The divided-power sum. -/
noncomputable def T (z w : A) (l m : ℕ) : A := ∑ k ∈ range (l + 1), term z w l m k

theorem term_add (z w : A) (m k j : ℕ) : term z w (m + 2 * k + j) m k
    = ((k ! * (k + m)! * j ! : ℕ) : ℝ)⁻¹ • (w ^ k * z ^ j) := by
  have h : m + 2 * k + j - m - 2 * k = j := by omega
  rw [term, if_pos (by omega), h]

theorem term_zero (z w : A) {l m k : ℕ} (h : l < m + 2 * k) : term z w l m k = 0 := by
  rw [term, if_neg (by omega)]

theorem T_eq_sum (z w : A) {l N : ℕ} (m : ℕ) (h : l < N) : T z w l m = ∑ k ∈ range N, term z w l m k := by
  unfold T
  apply Finset.sum_subset
  · intro k hk; simp only [mem_range] at hk ⊢; omega
  · intro k _ hk
    simp only [mem_range, not_lt] at hk
    exact term_zero z w (by omega)

theorem T_zero_of_lt (z w : A) {l m : ℕ} (h : l < m) : T z w l m = 0 := by
  unfold T
  exact Finset.sum_eq_zero fun k _ => term_zero z w (by omega)

theorem T_self (z w : A) (l : ℕ) : T z w l l = ((l ! : ℕ) : ℝ)⁻¹ • 1 := by
  unfold T
  rw [Finset.sum_eq_single 0]
  · have := term_add z w l 0 0
    simp only [mul_zero, add_zero] at this
    rw [this]; simp
  · intro k _ hk
    exact term_zero z w (by omega)
  · intro h; simp at h

section deriv
variable (D : Derivation ℝ A A)

theorem D_term_zero (z w : A) (l m : ℕ) : D (term z w (l + 1) m 0) = D z * term z w l m 0 := by
  rcases lt_trichotomy (l + 1) m with h | h | h
  · rw [term_zero z w (by omega), term_zero z w (by omega)]; simp
  · subst h
    have := term_add z w (l + 1) 0 0
    simp only [mul_zero, add_zero] at this
    rw [this, term_zero z w (by omega)]; simp
  · obtain ⟨j, rfl⟩ : ∃ j, l = m + j := ⟨l - m, by omega⟩
    have h1 := term_add z w m 0 (j + 1)
    have h2 := term_add z w m 0 j
    simp only [mul_zero, add_zero] at h1 h2
    rw [add_assoc, h1, h2]
    simp only [pow_zero, one_mul, Derivation.map_smul, Derivation.leibniz_pow, factorial_succ,
      factorial_zero, zero_add, smul_eq_mul, Nat.add_sub_cancel]
    rw [← Nat.cast_smul_eq_nsmul ℝ, smul_smul, mul_smul_comm, mul_comm (D z)]
    congr 1
    have : ((j ! : ℕ) : ℝ) ≠ 0 := by positivity
    have : ((m ! : ℕ) : ℝ) ≠ 0 := by positivity
    push_cast; field_simp

theorem D_term_succ (z w : A) (l m k : ℕ) :
    D (term z w (l + 1) m (k + 1)) = D z * term z w l m (k + 1) + D w * term z w l (m + 1) k := by
  rcases lt_trichotomy (l + 1) (m + 2 * (k + 1)) with h | h | h
  · rw [term_zero z w (by omega), term_zero z w (by omega), term_zero z w (by omega)]; simp
  · obtain rfl : l = m + 1 + 2 * k + 0 := by omega
    have h1 := term_add z w m (k + 1) 0
    have h2 := term_add z w (m + 1) k 0
    rw [show m + 1 + 2 * k + 0 + 1 = m + 2 * (k + 1) + 0 by ring, h1, h2, term_zero z w (by omega)]
    simp only [pow_zero, mul_one, Derivation.map_smul, Derivation.leibniz_pow, factorial_succ,
      factorial_zero, smul_eq_mul, Nat.add_sub_cancel, mul_zero, zero_add]
    rw [← Nat.cast_smul_eq_nsmul ℝ, smul_smul, mul_smul_comm, mul_comm (D w),
      show k + 1 + m = k + (m + 1) by ring]
    congr 1
    have : ((k ! : ℕ) : ℝ) ≠ 0 := by positivity
    have : (((k + (m + 1)) ! : ℕ) : ℝ) ≠ 0 := by positivity
    push_cast; field_simp
  · obtain ⟨j, rfl⟩ : ∃ j, l = m + 2 * (k + 1) + j := ⟨l - (m + 2 * (k + 1)), by omega⟩
    have h1 := term_add z w m (k + 1) (j + 1)
    have h2 := term_add z w (m + 1) k (j + 1)
    have h3 := term_add z w m (k + 1) j
    rw [add_assoc (m + 2 * (k + 1)), h1, h3, show m + 2 * (k + 1) + j = m + 1 + 2 * k + (j + 1) by ring, h2]
    simp only [Derivation.map_smul, Derivation.leibniz, Derivation.leibniz_pow, factorial_succ,
      smul_eq_mul, Nat.add_sub_cancel]
    rw [← Nat.cast_smul_eq_nsmul ℝ, ← Nat.cast_smul_eq_nsmul ℝ]
    simp only [smul_add, mul_smul_comm, smul_smul]
    rw [show k + 1 + m = k + (m + 1) by ring]
    congr 1
    · rw [show D z * (w ^ (k + 1) * z ^ j) = w ^ (k + 1) * (z ^ j * D z) by ring]
      congr 1
      have : ((k ! : ℕ) : ℝ) ≠ 0 := by positivity
      have : ((j ! : ℕ) : ℝ) ≠ 0 := by positivity
      have : (((k + (m + 1)) ! : ℕ) : ℝ) ≠ 0 := by positivity
      push_cast; field_simp
    · rw [show D w * (w ^ k * z ^ (j + 1)) = z ^ (j + 1) * (w ^ k * D w) by ring]
      congr 1
      have : ((k ! : ℕ) : ℝ) ≠ 0 := by positivity
      have : ((j ! : ℕ) : ℝ) ≠ 0 := by positivity
      have : (((k + (m + 1)) ! : ℕ) : ℝ) ≠ 0 := by positivity
      push_cast; field_simp

/-- Derivative of the divided-power sum. -/
theorem D_T (z w : A) (l m : ℕ) : D (T z w (l + 1) m) = D z * T z w l m + D w * T z w l (m + 1) := by
  rw [T_eq_sum z w (N := l + 3) m (by omega), T_eq_sum z w (N := l + 3) m (by omega),
    T_eq_sum z w (N := l + 2) (m + 1) (by omega), sum_range_succ', map_add, map_sum,
    sum_range_succ' (fun k => term z w l m k), mul_add, mul_sum, mul_sum, D_term_zero]
  simp only [D_term_succ, sum_add_distrib]
  ring

theorem D_T_zero (z w : A) (m : ℕ) : D (T z w 0 m) = 0 := by
  cases m with
  | zero => rw [T_self]; simp
  | succ m => rw [T_zero_of_lt z w (by omega)]; simp

end deriv

/-- Lowering identity. -/
theorem T_lower (z w : A) (l m : ℕ) :
    ((m : ℝ) + 1) • T z w (l + 1) (m + 1) + w * T z w l (m + 2) = T z w l m := by
  have h0 : ((m : ℝ) + 1) • term z w (l + 1) (m + 1) 0 = term z w l m 0 := by
    by_cases h : m ≤ l
    · obtain ⟨j, rfl⟩ : ∃ j, l = m + j := ⟨l - m, by omega⟩
      have h1 := term_add z w (m + 1) 0 j
      have h2 := term_add z w m 0 j
      simp only [mul_zero, add_zero] at h1 h2
      rw [show m + j + 1 = m + 1 + j by ring, h1, h2, smul_smul]
      congr 1
      rw [zero_add, zero_add, factorial_succ]
      have : ((j ! : ℕ) : ℝ) ≠ 0 := by positivity
      have : ((m ! : ℕ) : ℝ) ≠ 0 := by positivity
      push_cast; field_simp
    · rw [term_zero z w (by omega), term_zero z w (by omega), smul_zero]
  have hs : ∀ k, ((m : ℝ) + 1) • term z w (l + 1) (m + 1) (k + 1) + w * term z w l (m + 2) k
      = term z w l m (k + 1) := by
    intro k
    by_cases h : m + 2 * (k + 1) ≤ l
    · obtain ⟨j, rfl⟩ : ∃ j, l = m + 2 * (k + 1) + j := ⟨l - (m + 2 * (k + 1)), by omega⟩
      have h1 := term_add z w (m + 1) (k + 1) j
      have h2 := term_add z w (m + 2) k j
      rw [term_add, show m + 2 * (k + 1) + j + 1 = m + 1 + 2 * (k + 1) + j by ring, h1,
        show m + 2 * (k + 1) + j = m + 2 + 2 * k + j by ring, h2, smul_smul, mul_smul_comm,
        show w * (w ^ k * z ^ j) = w ^ (k + 1) * z ^ j by ring, ← add_smul]
      congr 1
      rw [show k + 1 + (m + 1) = (k + 1 + m) + 1 by ring, show k + (m + 2) = (k + 1 + m) + 1 by ring,
        factorial_succ, factorial_succ]
      have : ((j ! : ℕ) : ℝ) ≠ 0 := by positivity
      have : ((k ! : ℕ) : ℝ) ≠ 0 := by positivity
      have : (((k + 1 + m) ! : ℕ) : ℝ) ≠ 0 := by positivity
      push_cast; field_simp; ring
    · rw [term_zero z w (by omega), term_zero z w (by omega), term_zero z w (by omega)]; simp
  rw [T_eq_sum z w (N := l + 3) (m + 1) (by omega), T_eq_sum z w (N := l + 2) (m + 2) (by omega),
    T_eq_sum z w (N := l + 3) m (by omega), sum_range_succ', sum_range_succ' (fun k => term z w l m k), smul_add, h0,
    smul_sum, mul_sum]
  simp only [← hs, sum_add_distrib]
  abel

/-- Raising identity. -/
theorem T_raise (z w : A) (l m : ℕ) :
    (2 : ℝ) • T z w l m + z * T z w l (m + 1) = ((l : ℝ) + m + 2) • T z w (l + 1) (m + 1) := by
  rw [T_eq_sum z w (N := l + 2) (m + 1) (by omega : l < l + 2), T_eq_sum z w (N := l + 2) m (by omega),
    T_eq_sum z w (N := l + 2) (m + 1) (by omega : l + 1 < l + 2), smul_sum, mul_sum, smul_sum, ← sum_add_distrib]
  apply sum_congr rfl
  intro k _
  rcases lt_trichotomy l (m + 2 * k) with h | h | h
  · rw [term_zero z w (by omega), term_zero z w (by omega), term_zero z w (by omega)]; simp
  · obtain rfl : l = m + 2 * k + 0 := by omega
    have h1 := term_add z w (m + 1) k 0
    rw [term_add, term_zero z w (by omega : m + 2 * k + 0 < m + 1 + 2 * k),
      show m + 2 * k + 0 + 1 = m + 1 + 2 * k + 0 by ring, h1, mul_zero, add_zero, smul_smul, smul_smul,
      show k + (m + 1) = (k + m) + 1 by ring, factorial_succ]
    congr 1
    have : ((k ! : ℕ) : ℝ) ≠ 0 := by positivity
    have : (((k + m) ! : ℕ) : ℝ) ≠ 0 := by positivity
    push_cast; field_simp; ring
  · obtain ⟨j, rfl⟩ : ∃ j, l = m + 2 * k + (j + 1) := ⟨l - (m + 2 * k + 1), by omega⟩
    have h1 := term_add z w (m + 1) k (j + 1)
    have h2 := term_add z w (m + 1) k j
    rw [term_add, show m + 2 * k + (j + 1) + 1 = m + 1 + 2 * k + (j + 1) by ring, h1,
      show m + 2 * k + (j + 1) = m + 1 + 2 * k + j by ring, h2, smul_smul, mul_smul_comm,
      show z * (w ^ k * z ^ j) = w ^ k * z ^ (j + 1) by ring, smul_smul, ← add_smul,
      show k + (m + 1) = (k + m) + 1 by ring, factorial_succ, factorial_succ]
    congr 1
    have : ((k ! : ℕ) : ℝ) ≠ 0 := by positivity
    have : ((j ! : ℕ) : ℝ) ≠ 0 := by positivity
    have : (((k + m) ! : ℕ) : ℝ) ≠ 0 := by positivity
    push_cast; field_simp; ring

/-- Homogeneous Bonnet recurrence. -/
theorem T_bonnet (z w : A) (l m : ℕ) :
    (((l : ℝ) + 2) ^ 2 - (m : ℝ) ^ 2) • T z w (l + 2) m
      = (2 * (l : ℝ) + 3) • (z * T z w (l + 1) m) - (z ^ 2 - (4 : ℝ) • w) * T z w l m := by
  have h0 : (((l : ℝ) + 2) ^ 2 - (m : ℝ) ^ 2) • term z w (l + 2) m 0
      = (2 * (l : ℝ) + 3) • (z * term z w (l + 1) m 0) - z ^ 2 * term z w l m 0 := by
    rcases lt_trichotomy (l + 2) m with h | h | h
    · rw [term_zero z w (by omega), term_zero z w (by omega), term_zero z w (by omega)]; simp
    · subst h
      rw [term_zero z w (by omega : l + 1 < _), term_zero z w (by omega : l < _)]
      push_cast; simp
    · by_cases hl : l + 1 = m
      · subst hl
        rw [term_zero z w (by omega : l < _)]
        have h1 := term_add z w (l + 1) 0 1
        have h2 := term_add z w (l + 1) 0 0
        simp only [mul_zero, add_zero] at h1 h2
        rw [show l + 2 = l + 1 + 1 by ring, h1, h2, mul_zero, sub_zero, smul_smul, mul_smul_comm, smul_smul]
        simp only [pow_zero, one_mul, mul_one, pow_one, factorial_zero, factorial_one]
        congr 1
        push_cast; ring
      · obtain ⟨j, rfl⟩ : ∃ j, l = m + j := ⟨l - m, by omega⟩
        have h1 := term_add z w m 0 (j + 2)
        have h2 := term_add z w m 0 (j + 1)
        have h3 := term_add z w m 0 j
        simp only [mul_zero, add_zero] at h1 h2 h3
        rw [show m + j + 2 = m + (j + 2) by ring, show m + j + 1 = m + (j + 1) by ring, h1, h2, h3, smul_smul,
          mul_smul_comm, mul_smul_comm, smul_smul]
        simp only [pow_zero, one_mul, zero_add, factorial_zero]
        rw [show z * z ^ (j + 1) = z ^ (j + 2) by ring, show z ^ 2 * z ^ j = z ^ (j + 2) by ring, ← sub_smul,
          show (j + 2)! = (j + 2) * ((j + 1) * (j)!) by rw [factorial_succ, factorial_succ],
          show (j + 1)! = (j + 1) * (j)! by rw [factorial_succ]]
        congr 1
        have : ((j ! : ℕ) : ℝ) ≠ 0 := by positivity
        have : ((m ! : ℕ) : ℝ) ≠ 0 := by positivity
        push_cast; field_simp; ring
  have hs : ∀ k, (((l : ℝ) + 2) ^ 2 - (m : ℝ) ^ 2) • term z w (l + 2) m (k + 1)
      = (2 * (l : ℝ) + 3) • (z * term z w (l + 1) m (k + 1)) - z ^ 2 * term z w l m (k + 1)
        + (4 : ℝ) • (w * term z w l m k) := by
    intro k
    rcases lt_trichotomy (l + 2) (m + 2 * (k + 1)) with h | h | h
    · rw [term_zero z w (by omega), term_zero z w (by omega), term_zero z w (by omega), term_zero z w (by omega)]
      simp
    · obtain rfl : l = m + 2 * k + 0 := by omega
      have h1 := term_add z w m (k + 1) 0
      rw [term_add, show m + 2 * k + 0 + 2 = m + 2 * (k + 1) + 0 by ring, h1, term_zero z w (by omega),
        term_zero z w (by omega), mul_zero, mul_zero, smul_zero, sub_zero, zero_add, mul_smul_comm, smul_smul,
        smul_smul, show w * (w ^ k * z ^ 0) = w ^ (k + 1) * z ^ 0 by ring, show k + 1 + m = (k + m) + 1 by ring,
        factorial_succ, factorial_succ]
      congr 1
      have : ((k ! : ℕ) : ℝ) ≠ 0 := by positivity
      have : (((k + m) ! : ℕ) : ℝ) ≠ 0 := by positivity
      push_cast; field_simp; ring
    · by_cases hl : l + 1 = m + 2 * (k + 1)
      · obtain rfl : l = m + 2 * k + 1 := by omega
        have h1 := term_add z w m (k + 1) 1
        have h2 := term_add z w m (k + 1) 0
        rw [term_add, show m + 2 * k + 1 + 2 = m + 2 * (k + 1) + 1 by ring, h1,
          show m + 2 * k + 1 + 1 = m + 2 * (k + 1) + 0 by ring, h2, term_zero z w (by omega), mul_zero, sub_zero,
          mul_smul_comm, mul_smul_comm, smul_smul, smul_smul, smul_smul,
          show w * (w ^ k * z ^ 1) = w ^ (k + 1) * z ^ 1 by ring,
          show z * (w ^ (k + 1) * z ^ 0) = w ^ (k + 1) * z ^ 1 by ring, ← add_smul,
          show k + 1 + m = (k + m) + 1 by ring, factorial_succ, factorial_succ]
        congr 1
        have : ((k ! : ℕ) : ℝ) ≠ 0 := by positivity
        have : (((k + m) ! : ℕ) : ℝ) ≠ 0 := by positivity
        simp only [factorial_one, factorial_zero]
        push_cast; field_simp; ring
      · obtain ⟨j, rfl⟩ : ∃ j, l = m + 2 * (k + 1) + j := ⟨l - (m + 2 * (k + 1)), by omega⟩
        have h1 := term_add z w m (k + 1) (j + 2)
        have h2 := term_add z w m (k + 1) (j + 1)
        have h3 := term_add z w m k (j + 2)
        rw [term_add, show m + 2 * (k + 1) + j + 2 = m + 2 * (k + 1) + (j + 2) by ring, h1,
          show m + 2 * (k + 1) + j + 1 = m + 2 * (k + 1) + (j + 1) by ring, h2,
          show m + 2 * (k + 1) + j = m + 2 * k + (j + 2) by ring, h3]
        simp only [mul_smul_comm, smul_smul]
        rw [show w * (w ^ k * z ^ (j + 2)) = w ^ (k + 1) * z ^ (j + 2) by ring,
          show z * (w ^ (k + 1) * z ^ (j + 1)) = w ^ (k + 1) * z ^ (j + 2) by ring,
          show z ^ 2 * (w ^ (k + 1) * z ^ j) = w ^ (k + 1) * z ^ (j + 2) by ring, ← sub_smul, ← add_smul,
          show k + 1 + m = (k + m) + 1 by ring, factorial_succ (k + m), factorial_succ k,
          show (j + 2)! = (j + 2) * ((j + 1) * (j)!) by rw [factorial_succ, factorial_succ],
          show (j + 1)! = (j + 1) * (j)! by rw [factorial_succ]]
        congr 1
        have : ((k ! : ℕ) : ℝ) ≠ 0 := by positivity
        have : ((j ! : ℕ) : ℝ) ≠ 0 := by positivity
        have : (((k + m) ! : ℕ) : ℝ) ≠ 0 := by positivity
        push_cast; field_simp; ring
  rw [T_eq_sum z w (N := l + 3) m (by omega), T_eq_sum z w (N := l + 3) m (by omega), sub_mul, smul_mul_assoc]
  rw [show z ^ 2 * T z w l m = z ^ 2 * ∑ k ∈ range (l + 3), term z w l m k by
      rw [T_eq_sum z w (N := l + 3) m (by omega)],
    T_eq_sum z w (N := l + 2) m (by omega)]
  rw [sum_range_succ', sum_range_succ' (fun k => term z w (l + 1) m k),
    sum_range_succ' (fun k => term z w l m k) (l + 2)]
  simp only [smul_add, mul_add, mul_sum, smul_sum]
  rw [h0]
  simp only [hs, sum_add_distrib, sum_sub_distrib]
  abel

end Verif.Solid
