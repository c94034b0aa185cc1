import Verif.Proofs.Addition
import Verif.Model.SphCore
import Verif.Props.ShRotation

/-!
Legendre polynomials on [-1, 1]: recurrence, upper bound 1, lower bound near 1; expansion of the cardioid.
-/

namespace Verif.Sph
open Real Verif.Solid

theorem evalLegendre_zero (x : ℝ) : evalLegendre 0 x = 1 := by simp [evalLegendre, legPoly]
theorem evalLegendre_one' (x : ℝ) : evalLegendre 1 x = x := by simp [evalLegendre, legPoly]

theorem evalLegendre_rec (n : ℕ) (x : ℝ) :
    ((n : ℝ) + 2) * evalLegendre (n + 2) x = (2 * n + 3) * x * evalLegendre (n + 1) x - (n + 1) * evalLegendre n x := by
  have h : ((n : ℝ) + 2) ≠ 0 := by positivity
  simp only [evalLegendre, legPoly, Polynomial.eval_mul, Polynomial.eval_C, Polynomial.eval_sub, Polynomial.eval_X]
  field_simp

/-- Bonnet's recurrence in the form `(2n+1) x P_n = (n+1) P_{n+1} + n P_{n-1}`. -/
theorem evalLegendre_bonnet (n : ℕ) (x : ℝ) :
    (2 * (n : ℝ) + 1) * x * evalLegendre n x = (n + 1) * evalLegendre (n + 1) x + n * evalLegendre (n - 1) x := by
  cases n with
  | zero => simp [evalLegendre_zero, evalLegendre_one']
  | succ n =>
    have := evalLegendre_rec n x
    simp only [Nat.add_sub_cancel]
    push_cast
    push_cast at this
    linarith

theorem evalLegendre_le_one (n : ℕ) (x : ℝ) (hx : |x| ≤ 1) : evalLegendre n x ≤ 1 := by
  rw [abs_le] at hx
  have hc : cos (arccos x) = x := cos_arccos hx.1 hx.2
  have h0 : (0 : ℝ) ∈ Set.Icc 0 π := ⟨le_refl _, pi_pos.le⟩
  have ha : arccos x ∈ Set.Icc 0 π := ⟨arccos_nonneg x, arccos_le_pi x⟩
  have e := C18_addition n 0 0 0 (arccos x) h0 ha
  have e1 := C18_addition n 0 0 0 0 h0 h0
  have e2 := C18_addition n 0 (arccos x) 0 (arccos x) ha ha
  have hd : ∀ z1 z2 : ℝ, cos (Utils.angleBetween (dirVec 0 z1) (dirVec 0 z2)) = sin z1 * sin z2 + cos z1 * cos z2 := by
    intro z1 z2; rw [cos_angleBetween]; simp [dirVec, dotProduct, Fin.sum_univ_three]
  rw [hd] at e e1 e2
  have s1 : sin (arccos x) * sin (arccos x) + cos (arccos x) * cos (arccos x) = 1 := by
    have := sin_sq_add_cos_sq (arccos x); nlinarith
  rw [s1, evalLegendre_one] at e2
  simp only [sin_zero, cos_zero, zero_mul, one_mul, zero_add, mul_one, evalLegendre_one, hc] at e e1
  have hle : ∑ m ∈ Finset.Icc (-(n : ℤ)) n, realSH n m 0 0 * realSH n m 0 (arccos x)
      ≤ ∑ m ∈ Finset.Icc (-(n : ℤ)) n, (realSH n m 0 0 * realSH n m 0 0
        + realSH n m 0 (arccos x) * realSH n m 0 (arccos x)) / 2 := by
    refine Finset.sum_le_sum fun m _ => ?_
    nlinarith [sq_nonneg (realSH n m 0 0 - realSH n m 0 (arccos x))]
  rw [← Finset.sum_div, Finset.sum_add_distrib, e, e1, e2] at hle
  have hp : 0 < (2 * (n : ℝ) + 1) / (4 * π) := by positivity
  have : (2 * (n : ℝ) + 1) / (4 * π) * evalLegendre n x ≤ (2 * (n : ℝ) + 1) / (4 * π) * 1 := by linarith
  exact le_of_mul_le_mul_left this hp

/-- Christoffel-Darboux at 1. -/
theorem sum_legendre (n : ℕ) (x : ℝ) :
    (1 - x) * ∑ k ∈ Finset.range (n + 1), (2 * (k : ℝ) + 1) * evalLegendre k x
      = (n + 1) * (evalLegendre n x - evalLegendre (n + 1) x) := by
  induction n with
  | zero => simp [evalLegendre_zero, evalLegendre_one']
  | succ n ih =>
    rw [Finset.sum_range_succ, mul_add, ih]
    have := evalLegendre_bonnet (n + 1) x
    simp only [Nat.add_sub_cancel] at this
    push_cast at this ⊢
    linear_combination -this

theorem sum_odd (n : ℕ) : ∑ k ∈ Finset.range n, (2 * (k : ℝ) + 1) = (n : ℝ) ^ 2 := by
  induction n with
  | zero => simp
  | succ n ih => rw [Finset.sum_range_succ, ih]; push_cast; ring

theorem evalLegendre_lower (n : ℕ) (x : ℝ) (hx : |x| ≤ 1) :
    1 - (1 - x) * (n * (n + 1) / 2) ≤ evalLegendre n x := by
  induction n with
  | zero => simp [evalLegendre_zero]
  | succ n ih =>
    have h := sum_legendre n x
    have hle : ∑ k ∈ Finset.range (n + 1), (2 * (k : ℝ) + 1) * evalLegendre k x ≤ ∑ k ∈ Finset.range (n + 1), (2 * (k : ℝ) + 1) :=
      Finset.sum_le_sum fun k _ => by
        have := evalLegendre_le_one k x hx
        have : 0 < 2 * (k : ℝ) + 1 := by positivity
        nlinarith
    rw [sum_odd] at hle
    have h1x : 0 ≤ 1 - x := by have := (abs_le.1 hx).2; linarith
    have h2 := mul_le_mul_of_nonneg_left hle h1x
    rw [h] at h2
    push_cast at h2 ⊢
    have hn : (0 : ℝ) < (n : ℝ) + 1 := by positivity
    have h3 : evalLegendre n x - evalLegendre (n + 1) x ≤ (1 - x) * (n + 1) := by
      have : ((n : ℝ) + 1) * (evalLegendre n x - evalLegendre (n + 1) x) ≤ (n + 1) * ((1 - x) * (n + 1)) := by
        nlinarith
      exact le_of_mul_le_mul_left this hn
    nlinarith

theorem sum_cubic (n : ℕ) : ∑ k ∈ Finset.range (n + 1), (2 * (k : ℝ) + 1) * (k * (k + 1) / 2)
    = n * (n + 1) ^ 2 * (n + 2) / 4 := by
  induction n with
  | zero => simp
  | succ n ih => rw [Finset.sum_range_succ, ih]; push_cast; ring

theorem sum_legendre_lower (N : ℕ) (x : ℝ) (hx : |x| ≤ 1) :
    ((N : ℝ) + 1) ^ 2 * (1 - (1 - x) * (N * (N + 2) / 4))
      ≤ ∑ k ∈ Finset.range (N + 1), (2 * (k : ℝ) + 1) * evalLegendre k x := by
  have h : ∑ k ∈ Finset.range (N + 1), ((2 * (k : ℝ) + 1) - (1 - x) * ((2 * (k : ℝ) + 1) * (k * (k + 1) / 2)))
      ≤ ∑ k ∈ Finset.range (N + 1), (2 * (k : ℝ) + 1) * evalLegendre k x :=
    Finset.sum_le_sum fun k _ => by
      have := evalLegendre_lower k x hx
      have : 0 < 2 * (k : ℝ) + 1 := by positivity
      nlinarith
  rw [Finset.sum_sub_distrib, ← Finset.mul_sum, sum_cubic, sum_odd] at h
  push_cast at h
  linarith [h]

/-- The sum of the max-rE weights in steering direction is positive. -/
theorem sum_maxre_pos (N : ℕ) :
    0 < ∑ k ∈ Finset.range (N + 1), (2 * (k : ℝ) + 1) * evalLegendre k (cos (137.9 * (π / 180) / (N + 1.51))) := by
  set θ := 137.9 * (π / 180) / ((N : ℝ) + 1.51) with hθ
  refine lt_of_lt_of_le ?_ (sum_legendre_lower N (cos θ) (abs_cos_le_one θ))
  have h1 : 1 - cos θ ≤ θ ^ 2 / 2 := by have := one_sub_sq_div_two_le_cos (x := θ); linarith
  have hN : (0 : ℝ) ≤ N := Nat.cast_nonneg N
  have hpi : π < 3.15 := pi_lt_d2
  have hθ2 : θ * (N + 1.51) = 137.9 * (π / 180) := by rw [hθ]; field_simp
  have hb : 137.9 * (π / 180) < 2.5 := by linarith
  have hp : 0 < 137.9 * (π / 180) := by positivity
  have hsq : θ ^ 2 * (N + 1.51) ^ 2 < 6.25 := by
    have : θ ^ 2 * (N + 1.51) ^ 2 = (137.9 * (π / 180)) ^ 2 := by rw [← hθ2]; ring
    rw [this]; nlinarith
  have hlt : θ ^ 2 * (N * (N + 2)) < 8 := by
    have : θ ^ 2 * (N * (N + 2)) ≤ θ ^ 2 * (N + 1.51) ^ 2 :=
      mul_le_mul_of_nonneg_left (by nlinarith) (sq_nonneg θ)
    linarith
  have : (1 - cos θ) * (N * (N + 2) / 4) < 1 := by
    have : (1 - cos θ) * (N * (N + 2) / 4) ≤ θ ^ 2 / 2 * (N * (N + 2) / 4) :=
      mul_le_mul_of_nonneg_right h1 (by positivity)
    nlinarith
  have : 0 < ((N : ℝ) + 1) ^ 2 := by positivity
  nlinarith

/-! ### Cardioid coefficients -/

/-- `N!² / ((N+n+1)! (N-n)!)` for `n ≤ N`, zero beyond. -/
noncomputable def cb (N n : ℕ) : ℝ :=
  if n ≤ N then ((N.factorial : ℝ) * N.factorial) / ((N + n + 1).factorial * (N - n).factorial) else 0

theorem cb_telescope (N n : ℕ) (hn : n ≤ N) : (2 * (n : ℝ) + 1) * cb N n
    = (N.factorial : ℝ) ^ 2 / ((N + n).factorial * (N - n).factorial)
      - (if n < N then (N.factorial : ℝ) ^ 2 / ((N + (n + 1)).factorial * (N - (n + 1)).factorial) else 0) := by
  unfold cb
  rw [if_pos hn]
  have f1 : ((N + n + 1).factorial : ℝ) = (N + n + 1) * (N + n).factorial := by
    rw [Nat.factorial_succ]; push_cast; ring
  have h1 : ((N + n).factorial : ℝ) ≠ 0 := by positivity
  have h1' : ((N : ℝ) + n + 1) ≠ 0 := by positivity
  by_cases h : n < N
  · rw [if_pos h]
    obtain ⟨k, rfl⟩ : ∃ k, N = n + k + 1 := ⟨N - n - 1, by omega⟩
    have e1 : n + k + 1 - n = k + 1 := by omega
    have e2 : n + k + 1 - (n + 1) = k := by omega
    have e3 : n + k + 1 + (n + 1) = n + k + 1 + n + 1 := by ring
    rw [e1, e2, e3, f1, Nat.factorial_succ k]
    have h2 : (k.factorial : ℝ) ≠ 0 := by positivity
    push_cast
    push_cast at h1'
    have h3 : ((k : ℝ) + 1) ≠ 0 := by positivity
    field_simp
    ring
  · have : n = N := by omega
    subst this
    rw [if_neg h, f1]
    field_simp
    ring

theorem cb_sum (N : ℕ) : ∑ n ∈ Finset.range (N + 1), (2 * (n : ℝ) + 1) * cb N n = 1 := by
  have key : ∀ k ≤ N, ∑ n ∈ Finset.range k, (2 * (n : ℝ) + 1) * cb N n
      = 1 - (N.factorial : ℝ) ^ 2 / ((N + k).factorial * (N - k).factorial) := by
    intro k
    induction k with
    | zero =>
      intro _
      have : (N.factorial : ℝ) ≠ 0 := by positivity
      simp only [Finset.range_zero, Finset.sum_empty, Nat.add_zero, Nat.sub_zero]
      field_simp; ring
    | succ k ih =>
      intro hk
      rw [Finset.sum_range_succ, ih (by omega), cb_telescope N k (by omega), if_pos (by omega)]
      ring
  rw [Finset.sum_range_succ, key N le_rfl, cb_telescope N N le_rfl, if_neg (lt_irrefl N)]
  ring

theorem cb_r1 (N n : ℕ) (h : n ≤ N + 1) :
    cb N n * ((N : ℝ) + 1) ^ 2 = cb (N + 1) n * (((N : ℝ) + n + 2) * (N + 1 - n)) := by
  rcases Nat.lt_or_eq_of_le h with h | rfl
  · obtain ⟨k, rfl⟩ : ∃ k, N = n + k := ⟨N - n, by omega⟩
    unfold cb
    rw [if_pos (by omega), if_pos (by omega)]
    have e1 : n + k - n = k := by omega
    have e2 : n + k + 1 - n = k + 1 := by omega
    have e3 : n + k + 1 + n + 1 = (n + k + n + 1) + 1 := by ring
    rw [e1, e2, e3, Nat.factorial_succ k, Nat.factorial_succ (n + k), Nat.factorial_succ (n + k + n + 1)]
    have : ((n + k + n + 1).factorial : ℝ) ≠ 0 := by positivity
    have : (k.factorial : ℝ) ≠ 0 := by positivity
    push_cast
    field_simp
    ring
  · unfold cb
    rw [if_neg (by omega)]
    push_cast; ring

theorem cb_r2 (N n : ℕ) (h : n ≤ N) :
    cb N n * ((N : ℝ) + 1) ^ 2 = cb (N + 1) (n + 1) * (((N : ℝ) + n + 3) * (N + n + 2)) := by
  obtain ⟨k, rfl⟩ : ∃ k, N = n + k := ⟨N - n, by omega⟩
  unfold cb
  rw [if_pos (by omega), if_pos (by omega)]
  have e1 : n + k - n = k := by omega
  have e2 : n + k + 1 - (n + 1) = k := by omega
  have e3 : n + k + 1 + (n + 1) + 1 = (n + k + n + 1) + 1 + 1 := by ring
  rw [e1, e2, e3, Nat.factorial_succ (n + k), Nat.factorial_succ (n + k + n + 1 + 1), Nat.factorial_succ (n + k + n + 1)]
  have : ((n + k + n + 1).factorial : ℝ) ≠ 0 := by positivity
  have : (k.factorial : ℝ) ≠ 0 := by positivity
  push_cast
  field_simp
  ring

theorem cb_r3 (N n : ℕ) (h : n ≤ N + 1) :
    cb N (n + 1) * ((N : ℝ) + 1) ^ 2 = cb (N + 1) n * (((N : ℝ) + 1 - n) * (N - n)) := by
  by_cases h1 : n + 1 ≤ N
  · obtain ⟨k, rfl⟩ : ∃ k, N = n + 1 + k := ⟨N - n - 1, by omega⟩
    unfold cb
    rw [if_pos (by omega), if_pos (by omega)]
    have e1 : n + 1 + k - (n + 1) = k := by omega
    have e2 : n + 1 + k + 1 - n = k + 1 + 1 := by omega
    have e3 : n + 1 + k + (n + 1) + 1 = n + 1 + k + 1 + n + 1 := by ring
    rw [e1, e2, e3, Nat.factorial_succ (n + 1 + k), Nat.factorial_succ (k + 1), Nat.factorial_succ k]
    have : ((n + 1 + k + 1 + n + 1).factorial : ℝ) ≠ 0 := by positivity
    have : (k.factorial : ℝ) ≠ 0 := by positivity
    push_cast
    field_simp
    ring
  · have : cb N (n + 1) = 0 := by unfold cb; rw [if_neg h1]
    rw [this]
    have : n = N ∨ n = N + 1 := by omega
    rcases this with rfl | rfl <;> (push_cast; ring)

/-- The order-`N` cardioid. -/
theorem cardioid_sum (N : ℕ) (x : ℝ) :
    ∑ n ∈ Finset.range (N + 1), (2 * (n : ℝ) + 1) * cb N n * evalLegendre n x = ((1 + x) / 2) ^ N := by
  induction N with
  | zero => simp [cb, evalLegendre_zero]
  | succ N ih =>
    rw [pow_succ, ← ih, Finset.sum_mul]
    have hz1 : cb N (N + 1) = 0 := by unfold cb; rw [if_neg (by omega)]
    have hz2 : cb N (N + 1 + 1) = 0 := by unfold cb; rw [if_neg (by omega)]
    -- the three sums
    have hterm : ∀ n ∈ Finset.range (N + 1), (2 * (n : ℝ) + 1) * cb N n * evalLegendre n x * ((1 + x) / 2)
        = 1 / 2 * ((2 * (n : ℝ) + 1) * cb N n * evalLegendre n x)
          + 1 / 2 * (((n : ℝ) + 1) * cb N n * evalLegendre (n + 1) x)
          + 1 / 2 * ((n : ℝ) * cb N n * evalLegendre (n - 1) x) := by
      intro n _
      have := evalLegendre_bonnet n x
      linear_combination (cb N n / 2) * this
    rw [Finset.sum_congr rfl hterm, Finset.sum_add_distrib, Finset.sum_add_distrib, ← Finset.mul_sum, ← Finset.mul_sum,
      ← Finset.mul_sum]
    have s1 : ∑ n ∈ Finset.range (N + 1), (2 * (n : ℝ) + 1) * cb N n * evalLegendre n x
        = ∑ n ∈ Finset.range (N + 1 + 1), (2 * (n : ℝ) + 1) * cb N n * evalLegendre n x := by
      rw [Finset.sum_range_succ _ (N + 1), hz1]; ring
    have s2 : ∑ n ∈ Finset.range (N + 1), ((n : ℝ) + 1) * cb N n * evalLegendre (n + 1) x
        = ∑ n ∈ Finset.range (N + 1 + 1), (n : ℝ) * cb N (n - 1) * evalLegendre n x := by
      rw [Finset.sum_range_succ' _ (N + 1)]
      simp
    have s3 : ∑ n ∈ Finset.range (N + 1), (n : ℝ) * cb N n * evalLegendre (n - 1) x
        = ∑ n ∈ Finset.range (N + 1 + 1), ((n : ℝ) + 1) * cb N (n + 1) * evalLegendre n x := by
      rw [Finset.sum_range_succ' _ N, Finset.sum_range_succ _ (N + 1), Finset.sum_range_succ _ N, hz1, hz2]
      simp
    rw [s1, s2, s3, Finset.mul_sum, Finset.mul_sum, Finset.mul_sum, ← Finset.sum_add_distrib, ← Finset.sum_add_distrib]
    refine Finset.sum_congr rfl fun n hn => ?_
    rw [Finset.mem_range] at hn
    have hN : ((N : ℝ) + 1) ^ 2 ≠ 0 := by positivity
    have r1 := cb_r1 N n (by omega)
    have r3 := cb_r3 N n (by omega)
    have r2 : (n : ℝ) * cb N (n - 1) * ((N : ℝ) + 1) ^ 2 = n * cb (N + 1) n * (((N : ℝ) + n + 2) * (N + n + 1)) := by
      cases n with
      | zero => simp
      | succ k =>
        have := cb_r2 N k (by omega)
        simp only [Nat.add_sub_cancel]
        push_cast
        linear_combination ((k : ℝ) + 1) * this
    have : (1 / 2 * ((2 * (n : ℝ) + 1) * cb N n * evalLegendre n x) + 1 / 2 * ((n : ℝ) * cb N (n - 1) * evalLegendre n x)
        + 1 / 2 * (((n : ℝ) + 1) * cb N (n + 1) * evalLegendre n x)) * ((N : ℝ) + 1) ^ 2
        = (2 * (n : ℝ) + 1) * cb (N + 1) n * evalLegendre n x * ((N : ℝ) + 1) ^ 2 := by
      linear_combination (evalLegendre n x / 2) * ((2 * (n : ℝ) + 1) * r1 + r2 + ((n : ℝ) + 1) * r3)
    exact (mul_right_cancel₀ hN this).symm

end Verif.Sph
