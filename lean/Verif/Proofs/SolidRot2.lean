import Verif.Proofs.SolidRot

/-!
Linear independence of the harmonics and the rotation theorem for the recursion.
-/

namespace Verif.Solid
open Finset Nat Real MvPolynomial

theorem pc_zero_zero : pc 0 0 = 1 := by simp [pc, Cc, cs, T_self]

theorem p_d (l : ℕ) : pderiv 0 (pc (l + 1) (l + 1)) = (1 / 2 : ℝ) • pc l l ∧
    pderiv 1 (pc (l + 1) (l + 1)) = -((1 / 2 : ℝ) • ps l l) ∧ pderiv 2 (pc (l + 1) (l + 1)) = 0 := by
  obtain ⟨h1, h2, h3⟩ := pc_d l l
  have a : pc l (l + 2) = 0 := Cc_of_lt _ _ _ (by omega)
  have b : ps l (l + 2) = 0 := Ss_of_lt _ _ _ (by omega)
  have c : pc l (l + 1) = 0 := Cc_of_lt _ _ _ (by omega)
  rw [h1, h2, h3, a, b, c]; simp

theorem q_d (l : ℕ) : pderiv 0 (ps (l + 1) (l + 1)) = (1 / 2 : ℝ) • ps l l ∧
    pderiv 1 (ps (l + 1) (l + 1)) = ((1 / 2 : ℝ) • pc l l) ∧ pderiv 2 (ps (l + 1) (l + 1)) = 0 := by
  obtain ⟨h1, h2, h3⟩ := ps_d l l
  have a : pc l (l + 2) = 0 := Cc_of_lt _ _ _ (by omega)
  have b : ps l (l + 2) = 0 := Ss_of_lt _ _ _ (by omega)
  have c : ps l (l + 1) = 0 := Ss_of_lt _ _ _ (by omega)
  rw [h1, h2, h3, a, b, c]; simp

theorem p_ne_zero : ∀ l : ℕ, pc l l ≠ 0
  | 0 => by rw [pc_zero_zero]; exact one_ne_zero
  | l + 1 => by
    intro h
    have h1 := (p_d l).1
    rw [h, map_zero] at h1
    exact p_ne_zero l ((smul_eq_zero.1 h1.symm).resolve_left (by norm_num))

theorem pq_zero (l : ℕ) {a b : ℝ} (h1 : a • pc l l + b • ps l l = 0) (h2 : b • pc l l - a • ps l l = 0) :
    a = 0 ∧ b = 0 := by
  have h3 : (a * a + b * b) • pc l l = 0 := by
    linear_combination (norm := module) a • h1 + b • h2
  have h4 := (smul_eq_zero.1 h3).resolve_right (p_ne_zero l)
  constructor <;> nlinarith [mul_self_nonneg a, mul_self_nonneg b]

theorem pq_indep (l : ℕ) {a b : ℝ} (h : a • pc (l + 1) (l + 1) + b • ps (l + 1) (l + 1) = 0) : a = 0 ∧ b = 0 := by
  have hx := congrArg (pderiv 0) h
  have hy := congrArg (pderiv 1) h
  simp only [map_add, Derivation.map_smul, (p_d l).1, (p_d l).2.1, (q_d l).1, (q_d l).2.1, map_zero] at hx hy
  refine pq_zero l ?_ ?_
  · linear_combination (norm := module) (2 : ℝ) • hx
  · linear_combination (norm := module) (2 : ℝ) • hy

/-- Factor of the sectoral harmonics. -/
noncomputable def sec (l : ℕ) : ℝ := √2 * kap (l + 1) (l + 1)
theorem sec_pos (l : ℕ) : 0 < sec l := mul_pos (by positivity) (kap_pos _ _)

theorem fh_top (l : ℕ) : fh (l + 1) ((l : ℤ) + 1) = sec l • pc (l + 1) (l + 1) := harm_pos _ _ _ _ _
theorem fh_bot (l : ℕ) : fh (l + 1) (-((l : ℤ) + 1)) = sec l • ps (l + 1) (l + 1) := harm_neg _ _ _ _ _
theorem fh_zero_zero : fh 0 0 = 1 := by
  have := harm_zero (X 0 : Pol) (X 1) (X 2) 0
  unfold fh
  rw [this]
  have h : Cc (X 0 : Pol) (X 1) (X 2) 0 0 = 1 := pc_zero_zero
  rw [h]; simp [kap]

theorem sum_I_succ {M : Type*} [AddCommGroup M] (l : ℕ) (g : ℤ → M) :
    ∑ n ∈ I (l + 1), g n = g ((l : ℤ) + 1) + g (-((l : ℤ) + 1)) + ∑ n ∈ I l, g n := by
  have h : I (l + 1) = insert ((l : ℤ) + 1) (insert (-((l : ℤ) + 1)) (I l)) := by
    ext a
    simp only [Finset.mem_insert, Finset.mem_Icc]; push_cast; omega
  rw [h, Finset.sum_insert, Finset.sum_insert, add_assoc]
  · simp only [Finset.mem_Icc]; omega
  · simp only [Finset.mem_insert, Finset.mem_Icc]; omega

theorem G_z (l : ℕ) (n ν : ℤ) : G l 2 n ν = if n = ν then rowU (l + 1) n else 0 := by
  unfold G rowComb combV combW
  simp

theorem rowU_pos {l : ℕ} {ν : ℤ} (h : ν ∈ I l) : 0 < rowU (l + 1) ν := by
  rw [Finset.mem_Icc] at h
  apply Real.sqrt_pos.2
  have h1 : ν * ν < ((l + 1 : ℕ) : ℤ) * ((l + 1 : ℕ) : ℤ) := by push_cast; nlinarith
  have h2 : (ν : ℝ) * ν < ((l + 1 : ℕ) : ℝ) * ((l + 1 : ℕ) : ℝ) := by exact_mod_cast h1
  linarith

theorem pderiv_z_fh (l : ℕ) (n : ℤ) : pderiv 2 (fh (l + 1) n) = rowU (l + 1) n • fh l n := by
  rw [pderiv_fh]
  simp only [G_z, ite_smul, zero_smul]
  rw [Finset.sum_ite_eq]
  split_ifs with h
  · rfl
  · rw [mem_I, not_le] at h; rw [fh_of_lt h, smul_zero]

theorem fh_indep : ∀ (l : ℕ) (c : ℤ → ℝ), ∑ ν ∈ I l, c ν • fh l ν = 0 → ∀ ν ∈ I l, c ν = 0
  | 0, c, h => by
    have hI : I 0 = {0} := by ext a; simp only [Finset.mem_Icc, Finset.mem_singleton]; omega
    rw [hI, Finset.sum_singleton, fh_zero_zero] at h
    intro ν hν
    rw [hI, Finset.mem_singleton] at hν
    subst hν
    exact (smul_eq_zero.1 h).resolve_right one_ne_zero
  | l + 1, c, h => by
    have hz := congrArg (pderiv 2) h
    rw [map_sum, map_zero] at hz
    simp only [Derivation.map_smul, pderiv_z_fh, smul_smul] at hz
    rw [sum_I_succ, fh_of_lt, fh_of_lt, smul_zero, smul_zero, zero_add, zero_add] at hz
    rotate_left
    · rw [abs_neg, abs_of_pos (by omega)]; omega
    · rw [abs_of_pos (by omega)]; omega
    have hc : ∀ ν ∈ I l, c ν = 0 := fun ν hν =>
      (mul_eq_zero.1 (fh_indep l _ hz ν hν)).resolve_right (rowU_pos hν).ne'
    rw [sum_I_succ, Finset.sum_eq_zero (s := I l) (fun ν hν => by rw [hc ν hν, zero_smul]), add_zero,
      fh_top, fh_bot, smul_smul, smul_smul] at h
    obtain ⟨h1, h2⟩ := pq_indep l h
    have e1 := (mul_eq_zero.1 h1).resolve_right (sec_pos l).ne'
    have e2 := (mul_eq_zero.1 h2).resolve_right (sec_pos l).ne'
    intro ν hν
    by_cases hm : ν ∈ I l
    · exact hc ν hm
    · have : ν = (l : ℤ) + 1 ∨ ν = -((l : ℤ) + 1) := by
        rw [Finset.mem_Icc] at hν hm; push_cast at hν; omega
      rcases this with rfl | rfl
      · exact e1
      · exact e2

theorem fin_ne : ¬ ((2 : Fin 3) = 0) ∧ ¬ ((2 : Fin 3) = 1) ∧ ¬ ((1 : Fin 3) = 0) ∧ ¬ ((0 : Fin 3) = 1) := by decide

theorem rowV_top (l : ℕ) : rowV (l + 1) ((l : ℤ) + 1) = √((2 * (l : ℝ) + 1) * (2 * (l : ℝ) + 2)) * (1 / 2) := by
  rw [rowV_succ]; congr 2; ring

/-- Column extraction at the upper end. -/
theorem G_top (l : ℕ) (hl : 1 ≤ l) (n : ℤ) (hn : n ∈ I (l + 1)) :
    G l 0 n l - G l 1 n (-l) = if n = (l : ℤ) + 1 then √((2 * (l : ℝ) + 1) * (2 * (l : ℝ) + 2)) else 0 := by
  rw [Finset.mem_Icc] at hn
  push_cast at hn
  split_ifs with h
  · subst h
    have h1 : rowW (l + 1) ((l : ℤ) + 1) = 0 := rowW_eq_zero _ _ (Or.inl (by push_cast; rw [abs_of_pos (by omega)]))
    unfold G rowComb
    rw [h1, rowV_top]
    have e1 : ¬ ((l : ℤ) + 1 = 0) := by omega
    have e2 : (0 : ℤ) < (l : ℤ) + 1 := by omega
    have e3 : ¬ ((l : ℤ) + 1 = 1) := by omega
    simp only [combV, e1, e2, e3, if_true, if_false]
    have e4 : (l : ℤ) + 1 - 1 = l := by ring
    have e5 : 1 - ((l : ℤ) + 1) = -l := by ring
    simp [e4, e5]
    ring
  · unfold G rowComb combV combW
    rcases lt_trichotomy n 0 with h0 | h0 | h0
    · have e1 : ¬ (n = 0) := by omega
      have e2 : ¬ (0 < n) := by omega
      have e4 : ¬ (n + 1 = (l : ℤ)) := by omega
      have e5 : ¬ (n - 1 = (l : ℤ)) := by omega
      have e6 : ¬ (-n - 1 = -(l : ℤ)) := by omega
      have e7 : ¬ (1 - n = -(l : ℤ)) := by omega
      simp only [e1, e2, h0, if_true, if_false, e4, e5, e6, e7, and_false, fin_ne.1, fin_ne.2.1, fin_ne.2.2.1, fin_ne.2.2.2, false_and, true_and]
      split_ifs <;> simp
    · subst h0
      simp only [if_true, lt_irrefl, if_false, smul_eq_mul]
      by_cases hl1 : l = 1
      · subst hl1; simp
      · have e1 : ¬ ((1 : ℤ) = l) := by omega
        have e2 : ¬ ((-1 : ℤ) = -l) := by omega
        simp [e1, e2]
    · have e1 : ¬ (n = 0) := by omega
      have e4 : ¬ (n - 1 = (l : ℤ)) := by omega
      have e5 : ¬ (1 - n = -(l : ℤ)) := by omega
      have e6 : (-n - 1 = -(l : ℤ)) ↔ (n + 1 = l) := by omega
      simp only [e1, h0, if_true, if_false, e4, e5, e6, and_false, fin_ne.1, fin_ne.2.1, fin_ne.2.2.1, fin_ne.2.2.2, false_and, true_and]
      split_ifs <;> simp

/-- Column extraction at the lower end. -/
theorem G_bot (l : ℕ) (hl : 1 ≤ l) (n : ℤ) (hn : n ∈ I (l + 1)) :
    G l 0 n (-l) + G l 1 n l = if n = -((l : ℤ) + 1) then √((2 * (l : ℝ) + 1) * (2 * (l : ℝ) + 2)) else 0 := by
  rw [Finset.mem_Icc] at hn
  push_cast at hn
  split_ifs with h
  · subst h
    have h1 : rowW (l + 1) (-((l : ℤ) + 1)) = 0 :=
      rowW_eq_zero _ _ (Or.inl (by push_cast; rw [abs_neg, abs_of_pos (by omega)]))
    unfold G rowComb
    rw [h1, rowV_neg, rowV_top]
    have e1 : ¬ (-((l : ℤ) + 1) = 0) := by omega
    have e2 : ¬ ((0 : ℤ) < -((l : ℤ) + 1)) := by omega
    have e3 : ¬ (-((l : ℤ) + 1) = -1) := by omega
    simp only [combV, e1, e2, e3, if_false]
    have e4 : - -((l : ℤ) + 1) - 1 = l := by ring
    have e5 : -((l : ℤ) + 1) + 1 = -l := by ring
    simp only [e4, e5]
    simp
    ring
  · unfold G rowComb combV combW
    rcases lt_trichotomy n 0 with h0 | h0 | h0
    · have e1 : ¬ (n = 0) := by omega
      have e2 : ¬ (0 < n) := by omega
      have e4 : ¬ (n + 1 = -(l : ℤ)) := by omega
      have e6 : ¬ (-n - 1 = (l : ℤ)) := by omega
      have e7 : (1 - n = (l : ℤ)) ↔ (n - 1 = -(l : ℤ)) := by omega
      simp only [e1, e2, h0, if_true, if_false, e4, e6, e7, and_false, fin_ne.1, fin_ne.2.1, fin_ne.2.2.1, fin_ne.2.2.2, false_and, true_and]
      split_ifs <;> simp
    · subst h0
      simp only [if_true, lt_irrefl, if_false, smul_eq_mul]
      have e1 : ¬ ((1 : ℤ) = -l) := by omega
      have e2 : ¬ ((-1 : ℤ) = l) := by omega
      simp [e1, e2]
    · have e1 : ¬ (n = 0) := by omega
      have e4 : ¬ (n - 1 = -(l : ℤ)) := by omega
      have e5 : ¬ (1 - n = (l : ℤ)) := by omega
      have e6 : ¬ (-n - 1 = (l : ℤ)) := by omega
      have e7 : ¬ (n + 1 = -(l : ℤ)) := by omega
      simp only [e1, h0, if_true, if_false, e4, e5, e6, e7, and_false, fin_ne.1, fin_ne.2.1, fin_ne.2.2.1, fin_ne.2.2.2, false_and, true_and]
      split_ifs <;> simp

end Verif.Solid
