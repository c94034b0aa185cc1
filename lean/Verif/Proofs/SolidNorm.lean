import Verif.Proofs.SolidHarm
import Mathlib.Analysis.Real.Sqrt

/-!
Normalised real solid harmonics indexed by `m : ℤ`, and their gradient in terms of the row coefficients `u, v, w` of the
rotation recursion.
-/

namespace Verif.Solid
open Finset Nat Real

variable {A : Type*} [CommRing A] [Algebra ℝ A]

/-- Normalisation `√((l-m)! (l+m)!)`. -/
noncomputable def kap (l m : ℕ) : ℝ := √(((l - m)! * (l + m)! : ℕ) : ℝ)

theorem kap_pos (l m : ℕ) : 0 < kap l m := by
  unfold kap; apply Real.sqrt_pos.2; positivity

theorem kap_same (l m : ℕ) (h : m ≤ l) : kap (l + 1) m = √(((l : ℝ) + 1) ^ 2 - (m : ℝ) ^ 2) * kap l m := by
  unfold kap
  obtain ⟨j, rfl⟩ : ∃ j, l = m + j := ⟨l - m, by omega⟩
  have hm0 : (0 : ℝ) ≤ m := by positivity
  have hj0 : (0 : ℝ) ≤ j := by positivity
  rw [← Real.sqrt_mul (by push_cast; nlinarith [mul_nonneg hm0 hj0])]
  congr 1
  rw [show m + j + 1 - m = j + 1 by omega, show m + j - m = j by omega, show m + j + 1 + m = (m + j + m) + 1 by ring,
    factorial_succ, factorial_succ]
  push_cast; ring

theorem kap_down (l m : ℕ) (h : m ≤ l) :
    kap (l + 1) (m + 1) = √(((l : ℝ) + m + 1) * ((l : ℝ) + m + 2)) * kap l m := by
  unfold kap
  rw [← Real.sqrt_mul (by positivity)]
  congr 1
  rw [show l + 1 - (m + 1) = l - m by omega, show l + 1 + (m + 1) = (l + m) + 1 + 1 by ring,
    factorial_succ, factorial_succ]
  push_cast; ring

theorem kap_up (l m : ℕ) (h : m + 1 ≤ l) :
    kap (l + 1) m = √(((l : ℝ) - m) * ((l : ℝ) + 1 - m)) * kap l (m + 1) := by
  unfold kap
  obtain ⟨j, rfl⟩ : ∃ j, l = m + 1 + j := ⟨l - (m + 1), by omega⟩
  rw [← Real.sqrt_mul (by push_cast; nlinarith)]
  congr 1
  rw [show m + 1 + j + 1 - m = j + 1 + 1 by omega, show m + 1 + j - (m + 1) = j by omega,
    show m + 1 + j + 1 + m = m + 1 + j + (m + 1) by ring, factorial_succ, factorial_succ]
  push_cast; ring

/-- Normalised real solid harmonic of order `l` and degree `m` (without the factor `√((2l+1)/(4π))`). -/
noncomputable def harm (x y z : A) (l : ℕ) (m : ℤ) : A :=
  if m = 0 then kap l 0 • Cc x y z l 0
  else if 0 < m then (√2 * kap l m.natAbs) • Cc x y z l m.natAbs
  else (√2 * kap l m.natAbs) • Ss x y z l m.natAbs

theorem harm_zero (x y z : A) (l : ℕ) : harm x y z l 0 = kap l 0 • Cc x y z l 0 := by simp [harm]
theorem harm_pos (x y z : A) (l m : ℕ) :
    harm x y z l ((m : ℤ) + 1) = (√2 * kap l (m + 1)) • Cc x y z l (m + 1) := by
  have h : ((m : ℤ) + 1).natAbs = m + 1 := by omega
  rw [harm, if_neg (by omega), if_pos (by omega), h]
theorem harm_neg (x y z : A) (l m : ℕ) :
    harm x y z l (-((m : ℤ) + 1)) = (√2 * kap l (m + 1)) • Ss x y z l (m + 1) := by
  have h : (-((m : ℤ) + 1)).natAbs = m + 1 := by omega
  rw [harm, if_neg (by omega), if_neg (by omega), h]

theorem harm_of_lt (x y z : A) {l : ℕ} {m : ℤ} (h : (l : ℤ) < |m|) : harm x y z l m = 0 := by
  have h' : l < m.natAbs := by rw [Int.abs_eq_natAbs] at h; exact_mod_cast h
  unfold harm
  split_ifs with h0 h1
  · omega
  · rw [Cc_of_lt _ _ _ h', smul_zero]
  · rw [Ss_of_lt _ _ _ h', smul_zero]

/-- Row coefficient `u` of the recursion, without the denominator. -/
noncomputable def rowU (l : ℕ) (m : ℤ) : ℝ := √((l : ℝ) * l - m * m)
/-- Row coefficient `v` of the recursion, without the denominator. -/
noncomputable def rowV (l : ℕ) (m : ℤ) : ℝ :=
  √((1 + if m = 0 then 1 else 0) * ((l : ℝ) + |(m : ℝ)| - 1) * ((l : ℝ) + |(m : ℝ)|))
    * (1 - 2 * if m = 0 then 1 else 0) * (1 / 2)
/-- Row coefficient `w` of the recursion, without the denominator. -/
noncomputable def rowW (l : ℕ) (m : ℤ) : ℝ :=
  √(((l : ℝ) - |(m : ℝ)| - 1) * ((l : ℝ) - |(m : ℝ)|)) * (1 - if m = 0 then 1 else 0) * (-(1 / 2))

variable {M : Type*} [AddCommGroup M] [Module ℝ M]

/-- The combination `V` of the recursion; `Q 0`, `Q 1`, `Q 2` belong to x, y, z. -/
noncomputable def combV (m : ℤ) (Q : Fin 3 → ℤ → M) : M :=
  if m = 0 then Q 0 1 + Q 1 (-1)
  else if 0 < m then if m = 1 then √2 • Q 0 (m - 1) else Q 0 (m - 1) - Q 1 (1 - m)
  else if m = -1 then √2 • Q 1 (-m - 1) else Q 1 (-m - 1) + Q 0 (m + 1)

/-- The combination `W` of the recursion. -/
noncomputable def combW (m : ℤ) (Q : Fin 3 → ℤ → M) : M :=
  if 0 < m then Q 0 (m + 1) + Q 1 (-m - 1)
  else if m < 0 then Q 0 (m - 1) - Q 1 (1 - m) else 0

/-- A row of the recursion. -/
noncomputable def rowComb (l : ℕ) (m : ℤ) (Q : Fin 3 → ℤ → M) : M :=
  rowU l m • Q 2 m + rowV l m • combV m Q + rowW l m • combW m Q

theorem rowComb_add (l : ℕ) (m : ℤ) (Q Q' : Fin 3 → ℤ → M) :
    rowComb l m (fun i a => Q i a + Q' i a) = rowComb l m Q + rowComb l m Q' := by
  unfold rowComb combV combW
  split_ifs <;> module

theorem rowComb_smul (l : ℕ) (m : ℤ) (c : ℝ) (Q : Fin 3 → ℤ → M) :
    rowComb l m (fun i a => c • Q i a) = c • rowComb l m Q := by
  unfold rowComb combV combW
  split_ifs <;> module

theorem rowComb_zero (l : ℕ) (m : ℤ) : rowComb l m (fun _ _ => (0 : M)) = 0 := by
  unfold rowComb combV combW
  split_ifs <;> simp

theorem rowComb_sum (l : ℕ) (m : ℤ) {ι : Type*} (s : Finset ι) (Q : ι → Fin 3 → ℤ → M) :
    rowComb l m (fun i a => ∑ j ∈ s, Q j i a) = ∑ j ∈ s, rowComb l m (Q j) := by
  classical
  induction s using Finset.induction_on with
  | empty => simpa using rowComb_zero l m
  | insert a s ha ih =>
    simp only [Finset.sum_insert ha]
    rw [rowComb_add, ih]

theorem rowComb_map {N : Type*} [AddCommGroup N] [Module ℝ N] (f : M →ₗ[ℝ] N) (l : ℕ) (m : ℤ)
    (Q : Fin 3 → ℤ → M) : f (rowComb l m Q) = rowComb l m (fun i a => f (Q i a)) := by
  unfold rowComb combV combW
  split_ifs <;> simp

theorem two_sqrt_two : √2 * √2 = (2 : ℝ) := Real.mul_self_sqrt (by norm_num)

section scal
variable {P : A}

theorem smul_same (l m : ℕ) (h : l < m → P = 0) :
    kap (l + 1) m • P = (rowU (l + 1) m * kap l m) • P := by
  by_cases hm : m ≤ l
  · rw [kap_same l m hm]
    congr 2
    unfold rowU; congr 1; push_cast; ring
  · rw [h (by omega)]; simp

theorem rowU_neg (l : ℕ) (m : ℤ) : rowU l (-m) = rowU l m := by unfold rowU; push_cast; ring_nf

theorem rowV_neg (l : ℕ) (m : ℤ) : rowV l (-m) = rowV l m := by unfold rowV; simp
theorem rowW_neg (l : ℕ) (m : ℤ) : rowW l (-m) = rowW l m := by unfold rowW; simp

theorem rowV_succ (l m : ℕ) :
    rowV (l + 1) ((m : ℤ) + 1) = √(((l : ℝ) + m + 1) * ((l : ℝ) + m + 2)) * (1 / 2) := by
  unfold rowV
  have h0 : ¬ ((m : ℤ) + 1 = 0) := by omega
  have ha : |(((m : ℤ) + 1 : ℤ) : ℝ)| = (m : ℝ) + 1 := by push_cast; rw [abs_of_pos (by positivity)]
  rw [ha]
  simp only [h0, if_false]
  push_cast
  rw [show (1 + 0) * ((l : ℝ) + 1 + (m + 1) - 1) * ((l : ℝ) + 1 + (m + 1)) = (l + m + 1) * (l + m + 2) by ring]
  ring

theorem rowV_zero (l : ℕ) : rowV (l + 1) 0 = -(√2 * √((l : ℝ) * ((l : ℝ) + 1))) * (1 / 2) := by
  unfold rowV
  rw [← Real.sqrt_mul (by norm_num)]
  simp only [if_true, Int.cast_zero, abs_zero]
  push_cast
  rw [show (1 + 1) * ((l : ℝ) + 1 + 0 - 1) * ((l : ℝ) + 1 + 0) = 2 * ((l : ℝ) * ((l : ℝ) + 1)) by ring]
  ring

theorem rowW_succ (l m : ℕ) :
    rowW (l + 1) ((m : ℤ) + 1) = -(√(((l : ℝ) - m - 1) * ((l : ℝ) - m)) * (1 / 2)) := by
  unfold rowW
  have h0 : ¬ ((m : ℤ) + 1 = 0) := by omega
  have ha : |(((m : ℤ) + 1 : ℤ) : ℝ)| = (m : ℝ) + 1 := by push_cast; rw [abs_of_pos (by positivity)]
  rw [ha]
  simp only [h0, if_false]
  push_cast
  rw [show ((l : ℝ) + 1 - (m + 1) - 1) * ((l : ℝ) + 1 - (m + 1)) = (l - m - 1) * (l - m) by ring]
  ring

theorem smul_down (l m : ℕ) (h : l < m → P = 0) :
    kap (l + 1) (m + 1) • P = (2 * rowV (l + 1) ((m : ℤ) + 1) * kap l m) • P := by
  by_cases hm : m ≤ l
  · rw [kap_down l m hm, rowV_succ]
    congr 1; ring
  · rw [h (by omega)]; simp

theorem smul_up (l m : ℕ) (h : l < m + 2 → P = 0) :
    kap (l + 1) (m + 1) • P = (-2 * rowW (l + 1) ((m : ℤ) + 1) * kap l (m + 2)) • P := by
  by_cases hm : m + 2 ≤ l
  · rw [kap_up l (m + 1) hm, rowW_succ]
    congr 1
    push_cast
    rw [show ((l : ℝ) - (m + 1)) * ((l : ℝ) + 1 - (m + 1)) = (l - m - 1) * (l - m) by ring]
    ring
  · rw [h (by omega)]; simp

theorem smul_zero_up (l : ℕ) (h : l < 1 → P = 0) :
    kap (l + 1) 0 • P = (-(rowV (l + 1) 0 * (√2 * kap l 1))) • P := by
  by_cases hm : 1 ≤ l
  · rw [kap_up l 0 hm, rowV_zero]
    congr 1
    have h2 := two_sqrt_two
    push_cast
    rw [sub_zero, sub_zero]
    linear_combination (-(1 / 2) * √((l : ℝ) * ((l : ℝ) + 1)) * kap l 1) * h2
  · rw [h (by omega)]; simp

end scal

/-- Gradient of the normalised harmonics. -/
theorem D_harm (D : Derivation ℝ A A) (x y z : A) (l : ℕ) (m : ℤ) :
    D (harm x y z (l + 1) m) = rowComb (l + 1) m (fun i a => D (![x, y, z] i) * harm x y z l a) := by
  obtain rfl | ⟨k, rfl⟩ | ⟨k, rfl⟩ : m = 0 ∨ (∃ k : ℕ, m = (k : ℤ) + 1) ∨ ∃ k : ℕ, m = -((k : ℤ) + 1) := by
    rcases lt_trichotomy m 0 with h | h | h
    · exact Or.inr (Or.inr ⟨(-m - 1).toNat, by omega⟩)
    · exact Or.inl h
    · exact Or.inr (Or.inl ⟨(m - 1).toNat, by omega⟩)
  · -- m = 0
    have hC : harm x y z l 1 = (√2 * kap l 1) • Cc x y z l 1 := harm_pos x y z l 0
    have hS : harm x y z l (-1) = (√2 * kap l 1) • Ss x y z l 1 := harm_neg x y z l 0
    rw [harm_zero, Derivation.map_smul, D_Cc_zero]
    simp only [rowComb, combV, combW, if_true, lt_irrefl, if_false, smul_zero, add_zero]
    simp only [Matrix.cons_val_zero, Matrix.cons_val_one, Matrix.cons_val]
    rw [harm_zero, hC, hS]
    have e1 := smul_same (P := Cc x y z l 0) l 0 (fun h => by omega)
    have e2 := smul_zero_up (P := Cc x y z l 1) l (fun h => Cc_of_lt _ _ _ h)
    have e3 := smul_zero_up (P := Ss x y z l 1) l (fun h => Ss_of_lt _ _ _ h)
    rw [Nat.cast_zero] at e1
    linear_combination (norm := algebra) D z * e1 - D x * e2 - D y * e3
  · -- m = k + 1
    rw [harm_pos, Derivation.map_smul, D_Cc_succ]
    have e1 := smul_same (P := Cc x y z l (k + 1)) l (k + 1) (fun h => Cc_of_lt _ _ _ h)
    have e2 := smul_down (P := Cc x y z l k) l k (fun h => Cc_of_lt _ _ _ h)
    have e3 := smul_down (P := Ss x y z l k) l k (fun h => Ss_of_lt _ _ _ h)
    have e4 := smul_up (P := Cc x y z l (k + 2)) l k (fun h => Cc_of_lt _ _ _ h)
    have e5 := smul_up (P := Ss x y z l (k + 2)) l k (fun h => Ss_of_lt _ _ _ h)
    have hCp : harm x y z l ((k : ℤ) + 1 + 1) = (√2 * kap l (k + 2)) • Cc x y z l (k + 2) := harm_pos x y z l (k + 1)
    have hSp : harm x y z l (-((k : ℤ) + 1) - 1) = (√2 * kap l (k + 2)) • Ss x y z l (k + 2) := by
      rw [show -((k : ℤ) + 1) - 1 = -(((k + 1 : ℕ) : ℤ) + 1) by push_cast; ring]; exact harm_neg x y z l (k + 1)
    push_cast at e1
    have n0 : ¬ ((k : ℤ) + 1 = 0) := by omega
    have n1 : (0 : ℤ) < (k : ℤ) + 1 := by omega
    cases k with
    | zero =>
      simp only [rowComb, combV, combW, if_true, Nat.cast_zero, zero_add]
      simp only [Matrix.cons_val_zero, Matrix.cons_val_one, Matrix.cons_val]
      simp only [Nat.cast_zero, zero_add] at hCp hSp e1 e2 e3 e4 e5
      rw [hCp, hSp, show (1 : ℤ) - 1 = 0 by ring, harm_zero,
        show harm x y z l 1 = (√2 * kap l 1) • Cc x y z l 1 from harm_pos x y z l 0]
      rw [Ss_zero] at e3 ⊢
      norm_num
      linear_combination (norm := algebra) (√2 • D z) * e1 + ((√2 * (1 / 2)) • D x) * e2
        - ((√2 * (1 / 2)) • D x) * e4 - ((√2 * (1 / 2)) • D y) * e5
    | succ k =>
      have n2 : ¬ (((k + 1 : ℕ) : ℤ) + 1 = 1) := by push_cast; omega
      simp only [rowComb, combV, combW, n0, n1, n2, if_true, if_false]
      simp only [Matrix.cons_val_zero, Matrix.cons_val_one, Matrix.cons_val]
      rw [hCp, hSp, harm_pos x y z l (k + 1),
        show ((k + 1 : ℕ) : ℤ) + 1 - 1 = (k : ℤ) + 1 by push_cast; ring, harm_pos,
        show 1 - (((k + 1 : ℕ) : ℤ) + 1) = -((k : ℤ) + 1) by push_cast; ring, harm_neg]
      push_cast at e1 e2 e3 e4 e5 ⊢
      linear_combination (norm := algebra) (√2 • D z) * e1 + ((√2 * (1 / 2)) • D x) * e2
        - ((√2 * (1 / 2)) • D x) * e4 - ((√2 * (1 / 2)) • D y) * e5 - ((√2 * (1 / 2)) • D y) * e3
  · -- m = -(k+1)
    rw [harm_neg, Derivation.map_smul, D_Ss_succ]
    have e1 := smul_same (P := Ss x y z l (k + 1)) l (k + 1) (fun h => Ss_of_lt _ _ _ h)
    have e2 := smul_down (P := Cc x y z l k) l k (fun h => Cc_of_lt _ _ _ h)
    have e3 := smul_down (P := Ss x y z l k) l k (fun h => Ss_of_lt _ _ _ h)
    have e4 := smul_up (P := Cc x y z l (k + 2)) l k (fun h => Cc_of_lt _ _ _ h)
    have e5 := smul_up (P := Ss x y z l (k + 2)) l k (fun h => Ss_of_lt _ _ _ h)
    have hCp : harm x y z l (1 - -((k : ℤ) + 1)) = (√2 * kap l (k + 2)) • Cc x y z l (k + 2) := by
      rw [show 1 - -((k : ℤ) + 1) = ((k + 1 : ℕ) : ℤ) + 1 by push_cast; ring]; exact harm_pos x y z l (k + 1)
    have hSp : harm x y z l (-((k : ℤ) + 1) - 1) = (√2 * kap l (k + 2)) • Ss x y z l (k + 2) := by
      rw [show -((k : ℤ) + 1) - 1 = -(((k + 1 : ℕ) : ℤ) + 1) by push_cast; ring]; exact harm_neg x y z l (k + 1)
    push_cast at e1
    have n0 : ¬ (-((k : ℤ) + 1) = 0) := by omega
    have n1 : ¬ ((0 : ℤ) < -((k : ℤ) + 1)) := by omega
    have n3 : -((k : ℤ) + 1) < 0 := by omega
    simp only [rowComb, rowU_neg, rowV_neg, rowW_neg]
    cases k with
    | zero =>
      simp only [combV, combW, if_true, Nat.cast_zero, zero_add]
      simp only [Matrix.cons_val_zero, Matrix.cons_val_one, Matrix.cons_val]
      simp only [Nat.cast_zero, zero_add] at hCp hSp e1 e2 e3 e4 e5
      rw [hCp, hSp, show - -(1 : ℤ) - 1 = 0 by ring, harm_zero,
        show harm x y z l (-1) = (√2 * kap l 1) • Ss x y z l 1 from harm_neg x y z l 0]
      rw [Ss_zero] at e3 ⊢
      rw [if_neg (by norm_num), if_neg (by norm_num), if_neg (by norm_num), if_pos (by norm_num)]
      linear_combination (norm := algebra) (√2 • D z) * e1 + ((√2 * (1 / 2)) • D y) * e2
        - ((√2 * (1 / 2)) • D x) * e5 + ((√2 * (1 / 2)) • D y) * e4
    | succ k =>
      have n2 : ¬ (-(((k + 1 : ℕ) : ℤ) + 1) = -1) := by push_cast; omega
      simp only [combV, combW, n0, n1, n2, n3, if_true, if_false]
      simp only [Matrix.cons_val_zero, Matrix.cons_val_one, Matrix.cons_val]
      rw [hCp, hSp, harm_neg x y z l (k + 1),
        show - -(((k + 1 : ℕ) : ℤ) + 1) - 1 = (k : ℤ) + 1 by push_cast; ring, harm_pos,
        show -(((k + 1 : ℕ) : ℤ) + 1) + 1 = -((k : ℤ) + 1) by push_cast; ring, harm_neg]
      push_cast at e1 e2 e3 e4 e5 ⊢
      linear_combination (norm := algebra) (√2 • D z) * e1 + ((√2 * (1 / 2)) • D y) * e2
        - ((√2 * (1 / 2)) • D x) * e5 + ((√2 * (1 / 2)) • D y) * e4 + ((√2 * (1 / 2)) • D x) * e3

end Verif.Solid
