import Verif.Proofs.LegendreBound
import Mathlib.Analysis.Calculus.Deriv.Polynomial
import Mathlib.MeasureTheory.Integral.IntervalIntegral.FundThmCalculus

/-!
Orthogonality of the associated Legendre functions, by the Legendre differential equation and partial integration.
-/

namespace Verif.Sph
open Real Polynomial

/-- `∫_{-1}^{1} p`. -/
noncomputable def J (p : ℝ[X]) : ℝ := ∫ x in (-1 : ℝ)..1, p.eval x

theorem J_int (p : ℝ[X]) (a b : ℝ) : IntervalIntegrable (fun x => p.eval x) MeasureTheory.volume a b :=
  (p.continuous).intervalIntegrable _ _

theorem J_add (p q : ℝ[X]) : J (p + q) = J p + J q := by
  unfold J
  simp only [eval_add]
  exact intervalIntegral.integral_add (J_int p _ _) (J_int q _ _)

theorem J_C_mul (c : ℝ) (p : ℝ[X]) : J (C c * p) = c * J p := by
  unfold J
  simp only [eval_mul, eval_C]
  exact intervalIntegral.integral_const_mul c _

theorem J_neg (p : ℝ[X]) : J (-p) = -J p := by
  have := J_C_mul (-1) p
  rw [show (C (-1 : ℝ)) * p = -p by simp] at this
  linarith

theorem J_sub (p q : ℝ[X]) : J (p - q) = J p - J q := by rw [sub_eq_add_neg, J_add, J_neg]; ring

theorem J_derivative (q : ℝ[X]) : J (derivative q) = q.eval 1 - q.eval (-1) :=
  intervalIntegral.integral_eq_sub_of_hasDerivAt (fun x _ => q.hasDerivAt x) (J_int _ _ _)

theorem J_one : J 1 = 2 := by
  have h := J_derivative X
  rw [derivative_X] at h
  rw [h]; simp; norm_num

/-- Partial integration with a factor that vanishes at both ends. -/
theorem J_parts (p q : ℝ[X]) (h1 : p.eval 1 = 0) (h2 : p.eval (-1) = 0) : J (p * derivative q) = -J (derivative p * q) := by
  have h := J_derivative (p * q)
  rw [derivative_mul, J_add] at h
  simp only [eval_mul, h1, h2, zero_mul, sub_zero] at h
  linarith

theorem legPoly_rec (n : ℕ) : C ((n : ℝ) + 2) * legPoly (n + 2)
    = C (2 * (n : ℝ) + 3) * X * legPoly (n + 1) - C ((n : ℝ) + 1) * legPoly n := by
  rw [legPoly, ← mul_assoc, ← C_mul, mul_one_div_cancel (by positivity), C_1, one_mul]

theorem C_cancel {c : ℝ} (hc : c ≠ 0) {p q : ℝ[X]} (h : C c * p = C c * q) : p = q :=
  mul_left_cancel₀ (by simpa using hc) h

theorem legPoly_AB (n : ℕ) :
    derivative (legPoly (n + 1)) = X * derivative (legPoly n) + C ((n : ℝ) + 1) * legPoly n ∧
    X * derivative (legPoly (n + 1)) = derivative (legPoly n) + C ((n : ℝ) + 1) * legPoly (n + 1) := by
  induction n with
  | zero => simp [legPoly]
  | succ n ih =>
    obtain ⟨a, b⟩ := ih
    have r := legPoly_rec n
    have rd := congrArg derivative r
    simp only [derivative_sub, derivative_mul, derivative_C, derivative_X, zero_mul, zero_add, mul_one] at rd
    have hc2 : ((n : ℝ) + 2) ≠ 0 := by positivity
    have e3 : C (2 * (n : ℝ) + 3) = 2 * C (n : ℝ) + 3 := by rw [C_add, C_mul]; rfl
    have e2 : C ((n : ℝ) + 2) = C (n : ℝ) + 2 := by rw [C_add]; rfl
    have e1 : C ((n : ℝ) + 1) = C (n : ℝ) + 1 := by rw [C_add]; rfl
    have e1' : C (((n + 1 : ℕ) : ℝ) + 1) = C (n : ℝ) + 2 := by push_cast; rw [C_add, C_add, C_1]; ring
    rw [e1] at a b
    rw [e2, e3, e1] at r rd
    rw [e1']
    have A : derivative (legPoly (n + 2)) = X * derivative (legPoly (n + 1)) + (C (n : ℝ) + 2) * legPoly (n + 1) := by
      apply C_cancel hc2
      rw [e2]
      linear_combination rd + (C (n : ℝ) + 1) * b
    refine ⟨A, ?_⟩
    linear_combination X * A - r + X * b - a

theorem legPoly_ode (n : ℕ) : derivative ((1 - X ^ 2) * derivative (legPoly n)) = -(C ((n : ℝ) * (n + 1)) * legPoly n) := by
  cases n with
  | zero => simp [legPoly]
  | succ n =>
    obtain ⟨a, b⟩ := legPoly_AB n
    have h : (1 - X ^ 2) * derivative (legPoly (n + 1)) = C ((n : ℝ) + 1) * (legPoly n - X * legPoly (n + 1)) := by
      linear_combination a - X * b
    rw [h, derivative_mul, derivative_C, derivative_sub, derivative_mul, derivative_X]
    have e1 : C (((n + 1 : ℕ) : ℝ) * ((n + 1 : ℕ) + 1)) = C ((n : ℝ) + 1) * (C ((n : ℝ) + 1) + 1) := by
      rw [← C_1, ← C_add, ← C_mul]; push_cast; rfl
    rw [e1]
    linear_combination (-C ((n : ℝ) + 1)) * b

/-- Differentiated Legendre equation. -/
theorem legPoly_ode_deriv (n m : ℕ) :
    (1 - X ^ 2) * derivative^[m + 2] (legPoly n) - C (2 * ((m : ℝ) + 1)) * X * derivative^[m + 1] (legPoly n)
      + C ((n : ℝ) * (n + 1) - m * (m + 1)) * derivative^[m] (legPoly n) = 0 := by
  induction m with
  | zero =>
    have h := legPoly_ode n
    rw [derivative_mul] at h
    simp only [derivative_sub, derivative_one, derivative_X_pow, Nat.cast_ofNat, Nat.add_one_sub_one, pow_one] at h
    simp only [Function.iterate_succ_apply', Function.iterate_zero, id_eq, Nat.cast_zero, zero_add, mul_one, sub_zero]
    rw [C_ofNat] at h
    rw [C_ofNat]
    linear_combination h
  | succ m ih =>
    have h := congrArg derivative ih
    simp only [derivative_add, derivative_sub, derivative_mul, derivative_C, derivative_X, derivative_one, derivative_X_pow,
      zero_mul, zero_add, mul_one, map_zero, ← Function.iterate_succ_apply'] at h
    have c1 : C (2 * (((m + 1 : ℕ) : ℝ) + 1)) = C (2 * ((m : ℝ) + 1)) + 2 := by
      rw [show (2 : ℝ[X]) = C 2 from rfl, ← C_add]; congr 1; push_cast; ring
    have c2 : C ((n : ℝ) * (n + 1) - ((m + 1 : ℕ) : ℝ) * ((m + 1 : ℕ) + 1))
        = C ((n : ℝ) * (n + 1) - m * (m + 1)) - C (2 * ((m : ℝ) + 1)) := by
      rw [← C_sub]; congr 1; push_cast; ring
    rw [c1, c2]
    have h2 : (C ((2 : ℕ) : ℝ) * X ^ (2 - 1) : ℝ[X]) = 2 * X := by simp; rfl
    rw [h2] at h
    linear_combination h

theorem legPoly_ode_sl (n m : ℕ) :
    derivative ((1 - X ^ 2) ^ (m + 1) * derivative^[m + 1] (legPoly n))
      = -(C ((n : ℝ) * (n + 1) - m * (m + 1)) * ((1 - X ^ 2) ^ m * derivative^[m] (legPoly n))) := by
  have h := legPoly_ode_deriv n m
  rw [derivative_mul, derivative_pow]
  simp only [derivative_sub, derivative_one, derivative_X_pow, ← Function.iterate_succ_apply', Nat.add_one_sub_one, pow_one]
  have c1 : C (2 * ((m : ℝ) + 1)) = 2 * C (((m + 1 : ℕ) : ℝ)) := by
    rw [show (2 : ℝ[X]) = C 2 from rfl, ← C_mul]; push_cast; rfl
  rw [c1] at h
  have h2 : (C ((2 : ℕ) : ℝ) : ℝ[X]) = 2 := by simp; rfl
  rw [h2]
  linear_combination (1 - X ^ 2) ^ m * h

/-- Weighted inner products of the `m`-th derivatives. -/
noncomputable def Jm (m n n' : ℕ) : ℝ := J ((1 - X ^ 2) ^ m * derivative^[m] (legPoly n) * derivative^[m] (legPoly n'))

theorem Jm_succ (m n n' : ℕ) : Jm (m + 1) n n' = ((n : ℝ) * (n + 1) - m * (m + 1)) * Jm m n n' := by
  unfold Jm
  rw [Function.iterate_succ_apply' _ m (legPoly n'), J_parts _ _ (by simp) (by simp), legPoly_ode_sl, neg_mul, mul_assoc,
    J_neg, J_C_mul]
  ring

theorem Jm_comm (m n n' : ℕ) : Jm m n n' = Jm m n' n := by
  unfold Jm; congr 1; ring

theorem Jm_zero_ne {n n' : ℕ} (h : n ≠ n') : Jm 0 n n' = 0 := by
  have h1 := Jm_succ 0 n n'
  have h2 := Jm_succ 0 n' n
  rw [Jm_comm 1 n' n, Jm_comm 0 n' n] at h2
  simp only [Nat.cast_zero, zero_mul, sub_zero, zero_add] at h1 h2
  have : ((n : ℝ) * (n + 1) - n' * (n' + 1)) * Jm 0 n n' = 0 := by linarith
  rcases mul_eq_zero.1 this with h3 | h3
  · exfalso
    have : ((n : ℝ) - n') * (n + n' + 1) = 0 := by linarith
    rcases mul_eq_zero.1 this with h4 | h4
    · exact h (by exact_mod_cast sub_eq_zero.1 h4)
    · have : (0 : ℝ) < n + n' + 1 := by positivity
      linarith
  · exact h3

theorem Jm_zero_self (n : ℕ) : Jm 0 n n = 2 / (2 * n + 1) := by
  induction n with
  | zero => simp [Jm, legPoly, J_one]
  | succ n ih =>
    -- (2n+1)(2n+3) ∫ x P_n P_{n+1} in two ways
    have b : ∀ k : ℕ, C (2 * (k : ℝ) + 1) * X * legPoly k = C ((k : ℝ) + 1) * legPoly (k + 1) + C (k : ℝ) * legPoly (k - 1) := by
      intro k
      cases k with
      | zero => simp [legPoly]
      | succ k =>
        have := legPoly_rec k
        simp only [Nat.add_sub_cancel]
        have c1 : C (2 * (((k + 1 : ℕ) : ℝ)) + 1) = C (2 * (k : ℝ) + 3) := by congr 1; push_cast; ring
        have c2 : C ((((k + 1 : ℕ) : ℝ)) + 1) = C ((k : ℝ) + 2) := by congr 1; push_cast; ring
        have c3 : C (((k + 1 : ℕ) : ℝ)) = C ((k : ℝ) + 1) := by congr 1; push_cast; ring
        rw [c1, c2, c3]
        linear_combination -this
    have J0 : ∀ i j, Jm 0 i j = J (legPoly i * legPoly j) := by intro i j; simp [Jm]
    have e1 : (2 * (n : ℝ) + 1) * J (X * legPoly n * legPoly (n + 1)) = (n + 1) * Jm 0 (n + 1) (n + 1) := by
      rw [← J_C_mul, show C (2 * (n : ℝ) + 1) * (X * legPoly n * legPoly (n + 1))
        = (C (2 * (n : ℝ) + 1) * X * legPoly n) * legPoly (n + 1) by ring, b, add_mul, mul_assoc, mul_assoc, J_add, J_C_mul,
        J_C_mul, ← J0, ← J0, Jm_zero_ne (show n - 1 ≠ n + 1 by omega)]
      ring
    have e2 : (2 * (n : ℝ) + 3) * J (X * legPoly n * legPoly (n + 1)) = (n + 1) * Jm 0 n n := by
      have hb := b (n + 1)
      have c1 : C (2 * (((n + 1 : ℕ) : ℝ)) + 1) = C (2 * (n : ℝ) + 3) := by congr 1; push_cast; ring
      have c3 : C (((n + 1 : ℕ) : ℝ)) = C ((n : ℝ) + 1) := by congr 1; push_cast; ring
      rw [c1, c3] at hb
      rw [← J_C_mul, show C (2 * (n : ℝ) + 3) * (X * legPoly n * legPoly (n + 1))
        = (C (2 * (n : ℝ) + 3) * X * legPoly (n + 1)) * legPoly n by ring, hb, add_mul, mul_assoc, mul_assoc, J_add, J_C_mul,
        J_C_mul, ← J0, ← J0, Jm_zero_ne (show n + 1 + 1 ≠ n by omega)]
      simp
    rw [ih] at e2
    have hp : (0 : ℝ) < (n : ℝ) + 1 := by positivity
    have h3 : (0 : ℝ) < 2 * (n : ℝ) + 3 := by positivity
    have h1 : (0 : ℝ) < 2 * (n : ℝ) + 1 := by positivity
    have hX : J (X * legPoly n * legPoly (n + 1)) = 2 * (n + 1) / ((2 * n + 1) * (2 * n + 3)) := by
      field_simp at e2 ⊢
      linarith
    rw [hX] at e1
    push_cast
    field_simp at e1 ⊢
    linarith

theorem Jm_eq (m n n' : ℕ) (hm : m ≤ n) : Jm m n n' = if n = n' then
    ((n + m).factorial : ℝ) / (n - m).factorial * (2 / (2 * n + 1)) else 0 := by
  induction m with
  | zero =>
    by_cases h : n = n'
    · subst h
      rw [if_pos rfl, Jm_zero_self]
      have : (n.factorial : ℝ) ≠ 0 := by positivity
      simp [this]
    · rw [if_neg h, Jm_zero_ne h]
  | succ m ih =>
    rw [Jm_succ, ih (by omega)]
    split_ifs with h
    · obtain ⟨k, rfl⟩ : ∃ k, n = m + 1 + k := ⟨n - m - 1, by omega⟩
      have e1 : m + 1 + k - m = k + 1 := by omega
      have e2 : m + 1 + k - (m + 1) = k := by omega
      have e3 : m + 1 + k + (m + 1) = m + 1 + k + m + 1 := by ring
      rw [e1, e2, e3, Nat.factorial_succ (m + 1 + k + m), Nat.factorial_succ k]
      have : (k.factorial : ℝ) ≠ 0 := by positivity
      push_cast
      field_simp
      ring
    · ring

theorem natDegree_legPoly (n : ℕ) : (legPoly n).natDegree ≤ n := by
  induction n using Nat.twoStepInduction with
  | zero => simp [legPoly]
  | one => simp [legPoly]
  | more n h1 h2 =>
    rw [legPoly]
    refine (natDegree_C_mul_le _ _).trans ((natDegree_sub_le _ _).trans (max_le ?_ ?_))
    · rw [mul_assoc]
      refine (natDegree_C_mul_le _ _).trans (natDegree_mul_le.trans ?_)
      rw [natDegree_X]; omega
    · exact (natDegree_C_mul_le _ _).trans (by omega)

theorem natDegree_Jm (m n n' : ℕ) (hm : m ≤ n) (hm' : m ≤ n') :
    ((1 - X ^ 2) ^ m * derivative^[m] (legPoly n) * derivative^[m] (legPoly n')).natDegree ≤ n + n' := by
  have h1 := (natDegree_iterate_derivative (legPoly n) m).trans (Nat.sub_le_sub_right (natDegree_legPoly n) m)
  have h2 := (natDegree_iterate_derivative (legPoly n') m).trans (Nat.sub_le_sub_right (natDegree_legPoly n') m)
  have h3 : ((1 - X ^ 2 : ℝ[X]) ^ m).natDegree ≤ m * 2 := by
    refine natDegree_pow_le.trans (Nat.mul_le_mul_left m ?_)
    refine (natDegree_sub_le _ _).trans ?_
    simp
  refine natDegree_mul_le.trans ((Nat.add_le_add_right natDegree_mul_le _).trans ?_)
  omega

end Verif.Sph
