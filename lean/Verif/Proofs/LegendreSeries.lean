import Verif.Props.MaxRE

/-!
Partial sums of the expansion of `P_n(1-2t)` in powers of `t` bound `P_n` from above and below in turn, and the sign of `P_N` at the
argument of `max_rE_weights`.
-/

namespace Verif.Props
open Real Verif.Sph

/-- `∏_{j<k} (n-j)(n+1+j)`. -/
noncomputable def legQ : ℕ → ℝ → ℝ
  | 0, _ => 1
  | k + 1, n => legQ k n * ((n - k) * (n + 1 + k))

theorem legQ_shift (k : ℕ) (n : ℝ) : legQ k (n + 1) * (n + 1 - k) = legQ k n * (n + 1 + k) := by
  induction k with
  | zero => simp [legQ]
  | succ k ih =>
    simp only [legQ]
    push_cast
    linear_combination ((n + 2 + k) * (n - k)) * ih

theorem legQ_zero (k : ℕ) : legQ (k + 1) 0 = 0 := by
  induction k with
  | zero => simp [legQ]
  | succ k ih => rw [legQ, ih, zero_mul]

theorem legQ_one (k : ℕ) : legQ (k + 2) 1 = 0 := by
  induction k with
  | zero => norm_num [legQ]
  | succ k ih => rw [legQ, ih, zero_mul]

theorem legQ_second (k : ℕ) (n : ℝ) :
    (n + 2) * (legQ (k + 1) (n + 2) - legQ (k + 1) (n + 1)) - (n + 1) * (legQ (k + 1) (n + 1) - legQ (k + 1) n)
      = 2 * (2 * n + 3) * (k + 1) ^ 2 * legQ k (n + 1) := by
  have h1 := legQ_shift k n
  have h2 := legQ_shift k (n + 1)
  rw [show n + 1 + 1 = n + 2 by ring] at h2
  simp only [legQ]
  linear_combination ((n + 1) * (n - k)) * h1 * (-1) + ((n + 2) * (n + 3 + k)) * h2

/-- Partial sums. -/
noncomputable def legPart (t : ℝ) (K : ℕ) (n : ℕ) : ℝ := ∑ k ∈ Finset.range (K + 1), (-1) ^ k * legQ k n * t ^ k / (k.factorial : ℝ) ^ 2

theorem legPart_zero (t : ℝ) (K : ℕ) : legPart t K 0 = 1 := by
  unfold legPart
  rw [Finset.sum_range_succ', Finset.sum_eq_zero]
  · simp [legQ]
  · intro k _
    rw [Nat.cast_zero, legQ_zero]; simp

theorem legPart_step (x : ℝ) (K n : ℕ) :
    ((n : ℝ) + 2) * (legPart ((1 - x) / 2) (K + 1) (n + 1) - legPart ((1 - x) / 2) (K + 1) (n + 2))
      - (n + 1) * (legPart ((1 - x) / 2) (K + 1) n - legPart ((1 - x) / 2) (K + 1) (n + 1))
      = (1 - x) * ((2 * n + 3) * legPart ((1 - x) / 2) K (n + 1)) := by
  unfold legPart
  rw [Finset.sum_range_succ' _ (K + 1), Finset.sum_range_succ' _ (K + 1), Finset.sum_range_succ' _ (K + 1)]
  simp only [legQ, pow_zero, Nat.factorial_zero, Nat.cast_one, add_sub_add_right_eq_sub, one_pow, div_one, mul_one]
  rw [← Finset.sum_sub_distrib, ← Finset.sum_sub_distrib, Finset.mul_sum, Finset.mul_sum, ← Finset.sum_sub_distrib, Finset.mul_sum, Finset.mul_sum]
  refine Finset.sum_congr rfl fun k _ => ?_
  have h := legQ_second k n
  simp only [legQ] at h
  push_cast at h ⊢
  have hk : ((k : ℝ) + 1) ≠ 0 := by positivity
  have hf : ((k.factorial : ℕ) : ℝ) ≠ 0 := by positivity
  rw [Nat.factorial_succ]
  push_cast
  obtain ⟨t, ht⟩ : ∃ t, t = (1 - x) / 2 := ⟨_, rfl⟩
  rw [← ht, show 1 - x = 2 * t by rw [ht]; ring]
  clear ht
  rw [pow_succ, pow_succ]
  field_simp
  linear_combination (t * t ^ k) * h

theorem legPart_one (x : ℝ) (K : ℕ) : legPart ((1 - x) / 2) (K + 1) 0 - legPart ((1 - x) / 2) (K + 1) 1 = (1 - x) * legPart ((1 - x) / 2) K 0 := by
  rw [legPart_zero, legPart_zero]
  unfold legPart
  rw [Finset.sum_range_succ', Finset.sum_range_succ', Finset.sum_eq_zero]
  · norm_num [legQ]; ring
  · intro k _
    rw [Nat.cast_one, legQ_one]; simp

/-- Odd partial sums are below and even ones above `P_n`. -/
theorem legPart_bounds (x : ℝ) (hx : |x| ≤ 1) (K n : ℕ) :
    legPart ((1 - x) / 2) (2 * K + 1) n ≤ evalLegendre n x ∧ evalLegendre n x ≤ legPart ((1 - x) / 2) (2 * K) n := by
  have hx1 : x ≤ 1 := (abs_le.1 hx).2
  have low : ∀ K, (∀ n, evalLegendre n x ≤ legPart ((1 - x) / 2) K n) → ∀ n, legPart ((1 - x) / 2) (K + 1) n ≤ evalLegendre n x := fun K h =>
    legendre_refine_lower x hx1 _ _ (legPart_zero _ _) (legPart_one x K) (fun n => legPart_step x K n) h
  have high : ∀ K, (∀ n, legPart ((1 - x) / 2) K n ≤ evalLegendre n x) → ∀ n, evalLegendre n x ≤ legPart ((1 - x) / 2) (K + 1) n := fun K h =>
    legendre_refine_upper x hx1 _ _ (legPart_zero _ _) (legPart_one x K) (fun n => legPart_step x K n) h
  have hup : ∀ K, ∀ n, evalLegendre n x ≤ legPart ((1 - x) / 2) (2 * K) n := by
    intro K
    induction K with
    | zero => intro n; simpa [legPart, legQ] using evalLegendre_le_one n x hx
    | succ K ih => exact high _ (low _ ih)
  exact ⟨low _ (hup K) n, hup K n⟩

end Verif.Props
