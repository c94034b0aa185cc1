import Mathlib.LinearAlgebra.Lagrange
import Mathlib.Analysis.SpecialFunctions.Trigonometric.Basic
import Mathlib.Tactic
import Verif.Model.Process
import Verif.Props.ProcessFilters

/-!
C182 (`lagrange_delay` as a filter: symmetry, moments, filters in a row, linear phase).
-/

namespace Verif.Props

open Real Verif.Process Polynomial

/-- **C182** The filter for the delay `N - d` is the filter for the delay `d` read backwards. -/
theorem C182_reversed (N : ℕ) (d : ℝ) (k : Fin (N + 1)) : lagrangeDelay N (N - d) k = lagrangeDelay N d k.rev := by
  have h := C53_unique N (N - d) (fun k => lagrangeDelay N d k.rev) (fun q hq => by
    have hc := C53_interpolates N d (q.comp (C (N : ℝ) - X)) (by
      refine natDegree_comp_le.trans ?_
      have h1 : (C (N : ℝ) - X).natDegree ≤ 1 := by compute_degree
      calc q.natDegree * (C (N : ℝ) - X).natDegree ≤ q.natDegree * 1 := Nat.mul_le_mul_left _ h1
        _ ≤ N := by omega)
    simp only [eval_comp, eval_sub, eval_C, eval_X] at hc
    rw [← hc, ← Equiv.sum_comp Fin.revPerm]
    refine Finset.sum_congr rfl fun k _ => ?_
    have hk : ((k.rev : ℕ) : ℝ) = (N : ℝ) - (k : ℕ) := by
      rw [Fin.val_rev, Nat.cast_sub (by omega)]; push_cast; ring
    simp only [Fin.revPerm_apply, Fin.rev_rev, hk])
  exact (congrFun h k).symm

/-- **C182** A signal sampled from a polynomial of degree at most `N` leaves the filter delayed by exactly `d` samples. -/
theorem C182_delays (N : ℕ) (d : ℝ) (q : ℝ[X]) (hq : q.natDegree ≤ N) (n : ℤ) :
    ∑ k : Fin (N + 1), lagrangeDelay N d k * q.eval (((n - (k : ℕ) : ℤ)) : ℝ) = q.eval (n - d) := by
  have hc := C53_interpolates N d (q.comp (C (n : ℝ) - X)) (by
    refine natDegree_comp_le.trans ?_
    have h1 : (C (n : ℝ) - X).natDegree ≤ 1 := by compute_degree
    calc q.natDegree * (C (n : ℝ) - X).natDegree ≤ q.natDegree * 1 := Nat.mul_le_mul_left _ h1
      _ ≤ N := by omega)
  simp only [eval_comp, eval_sub, eval_C, eval_X] at hc
  push_cast
  exact hc

/-- **C182** The moments about the delay vanish up to the order: the filter is flat at frequency zero. -/
theorem C182_flat (N : ℕ) (d : ℝ) (m : ℕ) (hm : 1 ≤ m) (hN : m ≤ N) :
    ∑ k : Fin (N + 1), lagrangeDelay N d k * (((k : ℕ) : ℝ) - d) ^ m = 0 := by
  have h := C53_interpolates N d ((X - C d) ^ m) (by rw [natDegree_pow, natDegree_X_sub_C]; omega)
  simp only [eval_pow, eval_sub, eval_X, eval_C, sub_self] at h
  rw [h, zero_pow (by omega)]

/-- **C182** The next moment is the product of the distances to the taps with a minus sign: for a polynomial with leading term `x^(N+1)` the
filter is wrong by exactly that product. -/
theorem C182_error (N : ℕ) (d : ℝ) (q : ℝ[X]) (hq : q.Monic) (hd : q.natDegree = N + 1) :
    q.eval d - ∑ k : Fin (N + 1), lagrangeDelay N d k * q.eval ((k : ℕ) : ℝ) = ∏ k : Fin (N + 1), (d - ((k : ℕ) : ℝ)) := by
  set w : ℝ[X] := ∏ k : Fin (N + 1), (X - C ((k : ℕ) : ℝ)) with hw
  have hwm : w.Monic := monic_prod_of_monic _ _ fun k _ => monic_X_sub_C _
  have hwd : w.natDegree = N + 1 := by
    rw [hw, natDegree_prod_of_monic _ _ fun k _ => monic_X_sub_C _]; simp only [natDegree_X_sub_C]; simp
  have hlt : (q - w).degree < q.degree := by
    apply degree_sub_lt
    · rw [degree_eq_natDegree hq.ne_zero, degree_eq_natDegree hwm.ne_zero, hd, hwd]
    · exact hq.ne_zero
    · rw [hq.leadingCoeff, hwm.leadingCoeff]
  have hle : (q - w).natDegree ≤ N := by
    rw [degree_eq_natDegree hq.ne_zero, hd] at hlt
    rcases eq_or_ne (q - w) 0 with h0 | h0
    · rw [h0]; simp
    · exact Nat.lt_succ_iff.1 ((natDegree_lt_iff_degree_lt h0).2 hlt)
  have h := C53_interpolates N d (q - w) hle
  have hwk : ∀ k : Fin (N + 1), w.eval ((k : ℕ) : ℝ) = 0 := fun k => by
    rw [hw, eval_prod]
    exact Finset.prod_eq_zero (Finset.mem_univ k) (by simp)
  have hwv : w.eval d = ∏ k : Fin (N + 1), (d - ((k : ℕ) : ℝ)) := by
    rw [hw, eval_prod]; simp
  simp only [eval_sub, hwk, sub_zero] at h
  rw [h, hwv]; ring

/-- **C182** One degree more is delayed exactly only by the whole delays `0 … N`. -/
theorem C182_sharp (N : ℕ) (d : ℝ) (q : ℝ[X]) (hd : q.natDegree = N + 1) :
    ∑ k : Fin (N + 1), lagrangeDelay N d k * q.eval ((k : ℕ) : ℝ) = q.eval d ↔ ∃ j : ℕ, j ≤ N ∧ d = j := by
  have hq0 : q ≠ 0 := by rintro rfl; simp at hd
  have hl : q.leadingCoeff ≠ 0 := leadingCoeff_ne_zero.2 hq0
  have h := C182_error N d (C q.leadingCoeff⁻¹ * q) (by
    rw [Monic, leadingCoeff_mul, leadingCoeff_C]; exact inv_mul_cancel₀ hl)
    (by rw [natDegree_C_mul (inv_ne_zero hl), hd])
  simp only [eval_mul, eval_C] at h
  have h2 : q.eval d - ∑ k : Fin (N + 1), lagrangeDelay N d k * q.eval ((k : ℕ) : ℝ)
      = q.leadingCoeff * ∏ k : Fin (N + 1), (d - ((k : ℕ) : ℝ)) := by
    rw [← h, mul_sub, Finset.mul_sum, ← mul_assoc, mul_inv_cancel₀ hl, one_mul]
    congr 1
    refine Finset.sum_congr rfl fun k _ => ?_
    field_simp
  constructor
  · intro he
    rw [he, sub_self, eq_comm, mul_eq_zero, Finset.prod_eq_zero_iff] at h2
    obtain h2 | ⟨k, -, hk⟩ := h2
    · exact absurd h2 hl
    · exact ⟨k, by omega, by linarith⟩
  · rintro ⟨j, hj, rfl⟩
    rw [Finset.prod_eq_zero (Finset.mem_univ (⟨j, by omega⟩ : Fin (N + 1))) (by simp), mul_zero] at h2
    linarith

/-- **C182** Two filters in a row (the taps convolved) delay polynomials up to the smaller order by the sum of the delays. -/
theorem C182_cascade (N M : ℕ) (d e : ℝ) (q : ℝ[X]) (hN : q.natDegree ≤ N) (hM : q.natDegree ≤ M) :
    ∑ i : Fin (N + 1), ∑ j : Fin (M + 1), lagrangeDelay N d i * lagrangeDelay M e j * q.eval (((i : ℕ) + (j : ℕ) : ℕ) : ℝ) = q.eval (d + e) := by
  have hs : ∀ c : ℝ, ∀ K : ℕ, q.natDegree ≤ K → (q.comp (C c + X)).natDegree ≤ K := fun c K hK => by
    refine natDegree_comp_le.trans ?_
    have h1 : (C c + X).natDegree ≤ 1 := by compute_degree
    calc q.natDegree * (C c + X).natDegree ≤ q.natDegree * 1 := Nat.mul_le_mul_left _ h1
      _ ≤ K := by omega
  have h1 : ∀ i : Fin (N + 1), ∑ j : Fin (M + 1), lagrangeDelay N d i * lagrangeDelay M e j * q.eval (((i : ℕ) + (j : ℕ) : ℕ) : ℝ)
      = lagrangeDelay N d i * (q.comp (C e + X)).eval ((i : ℕ) : ℝ) := fun i => by
    have h := C53_interpolates M e (q.comp (C ((i : ℕ) : ℝ) + X)) (hs _ M hM)
    simp only [eval_comp, eval_add, eval_C, eval_X] at h ⊢
    rw [add_comm e, ← h, Finset.mul_sum]
    refine Finset.sum_congr rfl fun j _ => ?_
    push_cast; ring
  rw [Finset.sum_congr rfl fun i _ => h1 i, C53_interpolates N d _ (hs e N hN)]
  simp only [eval_comp, eval_add, eval_C, eval_X]
  rw [add_comm]

/-- **C182** At the delay `N/2` the phase is linear: the response at every frequency, turned back by the delay, is real. -/
theorem C182_linear_phase (N : ℕ) (w : ℝ) : ∑ k : Fin (N + 1), lagrangeDelay N (N / 2) k * sin (w * (((k : ℕ) : ℝ) - N / 2)) = 0 := by
  have h : ∑ k : Fin (N + 1), lagrangeDelay N (N / 2) k * sin (w * (((k : ℕ) : ℝ) - N / 2))
      = -∑ k : Fin (N + 1), lagrangeDelay N (N / 2) k * sin (w * (((k : ℕ) : ℝ) - N / 2)) := by
    conv_lhs => rw [← Equiv.sum_comp Fin.revPerm]
    rw [← Finset.sum_neg_distrib]
    refine Finset.sum_congr rfl fun k _ => ?_
    have hk : ((k.rev : ℕ) : ℝ) = (N : ℝ) - (k : ℕ) := by
      rw [Fin.val_rev, Nat.cast_sub (by omega)]; push_cast; ring
    have hr := C182_reversed N (N / 2) k
    rw [sub_half] at hr
    rw [Fin.revPerm_apply, ← hr, hk, ← mul_neg, ← sin_neg]
    congr 2; ring
  linarith

/-- The filter of order two for a quarter sample, and backwards for one and three quarters. -/
example : lagrangeDelay 2 (1 / 4) = ![21 / 32, 7 / 16, -3 / 32] ∧ lagrangeDelay 2 (7 / 4) = ![-3 / 32, 7 / 16, 21 / 32] := by
  constructor <;> funext i <;> fin_cases i <;> norm_num [lagrangeDelay, lagrangeStep, List.range_succ]

/-- The hypotheses are met: a square through a filter of order one is wrong at half a sample. -/
example : ¬ ∑ k : Fin 2, lagrangeDelay 1 (1 / 2) k * (X ^ 2 : ℝ[X]).eval ((k : ℕ) : ℝ) = (X ^ 2 : ℝ[X]).eval (1 / 2) := by
  rw [C182_sharp 1 (1 / 2) (X ^ 2) (by simp)]
  rintro ⟨j, hj, h⟩
  interval_cases j <;> norm_num at h

example : (X ^ 2 : ℝ[X]).Monic ∧ (X ^ 2 : ℝ[X]).natDegree = 1 + 1 := ⟨monic_X_pow 2, by simp⟩

/-- A parabola through filters of orders two and three. -/
example : ∑ i : Fin 3, ∑ j : Fin 4, lagrangeDelay 2 (1 / 4) i * lagrangeDelay 3 (1 / 2) j * (((i : ℕ) + (j : ℕ) : ℕ) : ℝ) ^ 2 = (3 / 4) ^ 2 := by
  have h := C182_cascade 2 3 (1 / 4) (1 / 2) (X ^ 2) (by simp) (by simp)
  simp only [eval_pow, eval_X] at h
  rw [h]; norm_num

end Verif.Props
