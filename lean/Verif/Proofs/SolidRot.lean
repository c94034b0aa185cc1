import Verif.Proofs.SolidNorm
import Mathlib.Algebra.MvPolynomial.PDeriv
import Mathlib.RingTheory.Derivation.Lie

/-!
A family of matrices that satisfies the row recursion represents the rotation on the real solid harmonics.
The harmonics are polynomials in three variables; the rotation acts by substitution.
-/

namespace Verif.Solid
open Finset Nat Real MvPolynomial

/-- Polynomials in x, y, z. -/
abbrev Pol := MvPolynomial (Fin 3) ℝ

/-- The real solid harmonic as a polynomial. -/
noncomputable def fh (l : ℕ) (m : ℤ) : Pol := harm (X 0) (X 1) (X 2) l m

theorem fh_of_lt {l : ℕ} {m : ℤ} (h : (l : ℤ) < |m|) : fh l m = 0 := harm_of_lt _ _ _ h

theorem rowComb_mul_right {A : Type*} [CommRing A] [Algebra ℝ A] (l : ℕ) (m : ℤ) (Q : Fin 3 → ℤ → A) (c : A) :
    rowComb l m (fun i a => Q i a * c) = rowComb l m Q * c := by
  unfold rowComb combV combW
  split_ifs <;> algebra

theorem rowComb_smul_right {M : Type*} [AddCommGroup M] [Module ℝ M] (l : ℕ) (m : ℤ) (Q : Fin 3 → ℤ → ℝ) (c : M) :
    rowComb l m (fun i a => Q i a • c) = rowComb l m Q • c := by
  unfold rowComb combV combW
  simp only [smul_eq_mul]
  split_ifs <;> module

theorem rowU_self (l : ℕ) (m : ℤ) (h : |m| = l) : rowU l m = 0 := by
  unfold rowU
  have : (m : ℝ) * m = (l : ℝ) * l := by
    have h2 : m * m = (l : ℤ) * l := by rw [← h, abs_mul_abs_self]
    exact_mod_cast h2
  rw [this]; simp

theorem rowW_eq_zero (l : ℕ) (m : ℤ) (h : |m| = l ∨ |m| = (l : ℤ) - 1) : rowW l m = 0 := by
  unfold rowW
  have h' : |(m : ℝ)| = l ∨ |(m : ℝ)| = (l : ℝ) - 1 := by
    rcases h with h | h
    · left; exact_mod_cast h
    · right; exact_mod_cast h
  rcases h' with h | h <;> rw [h] <;> simp

theorem rowV_one_zero : rowV 1 0 = 0 := by simp [rowV]

theorem rowComb_congr {M : Type*} [AddCommGroup M] [Module ℝ M] {l : ℕ} {m : ℤ} (hm : |m| ≤ l + 1)
    {Q Q' : Fin 3 → ℤ → M} (h : ∀ i a, |a| ≤ (l : ℤ) → Q i a = Q' i a) :
    rowComb (l + 1) m Q = rowComb (l + 1) m Q' := by
  rw [abs_le] at hm
  unfold rowComb
  congr 1
  · congr 1
    · by_cases h1 : |m| = (l + 1 : ℕ)
      · rw [rowU_self _ _ h1]; simp
      · rw [h 2 m]
        push_cast at h1
        rw [abs_le]
        constructor <;> by_contra hc <;> apply h1 <;> rw [Int.abs_eq_natAbs] <;> omega
    · by_cases h1 : m = 0 ∧ l = 0
      · rw [h1.1, h1.2, rowV_one_zero]; simp
      · congr 1
        unfold combV
        split_ifs with h2 h3 h4 h5
        · rw [h, h] <;> rw [abs_le] <;> omega
        · rw [h]; rw [abs_le]; omega
        · rw [h, h] <;> rw [abs_le] <;> omega
        · rw [h]; rw [abs_le]; omega
        · rw [h, h] <;> rw [abs_le] <;> omega
  · by_cases h1 : |m| = (l + 1 : ℕ) ∨ |m| = ((l + 1 : ℕ) : ℤ) - 1
    · rw [rowW_eq_zero _ _ h1]; simp
    · congr 1
      push Not at h1
      push_cast at h1
      rw [Int.abs_eq_natAbs] at h1
      unfold combW
      split_ifs with h2 h3
      · rw [h, h] <;> rw [abs_le] <;> omega
      · rw [h, h] <;> rw [abs_le] <;> omega
      · rfl

/-- Coefficients of the gradient. -/
noncomputable def G (l : ℕ) (j : Fin 3) (n ν : ℤ) : ℝ :=
  rowComb (l + 1) n (fun i a => if i = j ∧ a = ν then 1 else 0)

/-- Index range `[-l, l]`. -/
noncomputable abbrev I (l : ℕ) : Finset ℤ := Finset.Icc (-(l : ℤ)) l

theorem mem_I {l : ℕ} {a : ℤ} : a ∈ I l ↔ |a| ≤ (l : ℤ) := by rw [Finset.mem_Icc, abs_le]

theorem pderiv_fh (l : ℕ) (j : Fin 3) (n : ℤ) :
    pderiv j (fh (l + 1) n) = ∑ ν ∈ I l, G l j n ν • fh l ν := by
  unfold fh
  rw [D_harm]
  have h : (fun (i : Fin 3) (a : ℤ) => (pderiv j) (![X 0, X 1, X 2] i : Pol) * harm (X 0) (X 1) (X 2) l a)
      = fun i a => ∑ ν ∈ I l, (if i = j ∧ a = ν then (1 : ℝ) else 0) • harm (X 0) (X 1) (X 2) l ν := by
    funext i a
    have hX : (![X 0, X 1, X 2] i : Pol) = X i := by fin_cases i <;> rfl
    rw [hX, pderiv_X]
    by_cases hij : i = j
    · subst hij
      simp only [Pi.single_eq_same, one_mul, true_and, ite_smul, one_smul, zero_smul]
      rw [Finset.sum_ite_eq]
      split_ifs with hI
      · rfl
      · rw [mem_I, not_le] at hI
        exact harm_of_lt _ _ _ hI
    · simp [hij]
  rw [h, rowComb_sum]
  refine Finset.sum_congr rfl fun ν _ => ?_
  rw [rowComb_smul_right]; rfl

theorem pderiv_comm' (i j : Fin 3) (p : Pol) : pderiv i (pderiv j p) = pderiv j (pderiv i p) := by
  have h : ⁅(pderiv i : Derivation ℝ Pol Pol), (pderiv j : Derivation ℝ Pol Pol)⁆ = 0 := by
    apply MvPolynomial.derivation_ext
    intro k
    rw [Derivation.commutator_apply, pderiv_X, pderiv_X]
    by_cases h1 : k = i <;> by_cases h2 : k = j <;> simp [Pi.single_apply, h1, h2] <;> split_ifs <;> simp
  have := congrArg (fun D : Derivation ℝ Pol Pol => D p) h
  simp only [Derivation.commutator_apply, Derivation.coe_zero, Pi.zero_apply] at this
  exact sub_eq_zero.1 this

/-- Laplacian. -/
noncomputable def lap (p : Pol) : Pol := ∑ j, pderiv j (pderiv j p)

theorem lap_add (p q : Pol) : lap (p + q) = lap p + lap q := by simp [lap, Finset.sum_add_distrib]
theorem lap_smul (c : ℝ) (p : Pol) : lap (c • p) = c • lap p := by simp [lap, Finset.smul_sum]
theorem lap_sub (p q : Pol) : lap (p - q) = lap p - lap q := by simp [lap, Finset.sum_sub_distrib]
theorem lap_sum {ι : Type*} (s : Finset ι) (p : ι → Pol) : lap (∑ k ∈ s, p k) = ∑ k ∈ s, lap (p k) := by
  simp only [lap, map_sum]; rw [Finset.sum_comm]


section lapl

/-- Real part as polynomial. -/
noncomputable abbrev pc (l m : ℕ) : Pol := Cc (X 0) (X 1) (X 2) l m
/-- Imaginary part as polynomial. -/
noncomputable abbrev ps (l m : ℕ) : Pol := Ss (X 0) (X 1) (X 2) l m

theorem pc_d0 (l : ℕ) : pderiv 0 (pc (l + 1) 0) = -pc l 1 ∧ pderiv 1 (pc (l + 1) 0) = -ps l 1 ∧
    pderiv 2 (pc (l + 1) 0) = pc l 0 := by
  refine ⟨?_, ?_, ?_⟩ <;> rw [D_Cc_zero] <;> simp [pderiv_X]

theorem pc_d (l m : ℕ) : pderiv 0 (pc (l + 1) (m + 1)) = (1 / 2 : ℝ) • (pc l m - pc l (m + 2)) ∧
    pderiv 1 (pc (l + 1) (m + 1)) = -((1 / 2 : ℝ) • (ps l m + ps l (m + 2))) ∧
    pderiv 2 (pc (l + 1) (m + 1)) = pc l (m + 1) := by
  refine ⟨?_, ?_, ?_⟩ <;> rw [D_Cc_succ] <;> simp [pderiv_X]

theorem ps_d (l m : ℕ) : pderiv 0 (ps (l + 1) (m + 1)) = (1 / 2 : ℝ) • (ps l m - ps l (m + 2)) ∧
    pderiv 1 (ps (l + 1) (m + 1)) = (1 / 2 : ℝ) • (pc l m + pc l (m + 2)) ∧
    pderiv 2 (ps (l + 1) (m + 1)) = ps l (m + 1) := by
  refine ⟨?_, ?_, ?_⟩ <;> rw [D_Ss_succ] <;> simp [pderiv_X]

theorem pderiv_zero_order (D : Derivation ℝ Pol Pol) (m : ℕ) : D (pc 0 m) = 0 ∧ D (ps 0 m) = 0 := by
  cases m with
  | zero =>
    simp only [pc, ps, Ss_zero, map_zero, and_true]
    simp only [Cc, cs, one_mul, Derivation.map_smul, D_T_zero, smul_zero]
  | succ m => simp [pc, ps, Cc_of_lt, Ss_of_lt]

theorem lap_pc_ps : ∀ l m : ℕ, lap (pc l m) = 0 ∧ lap (ps l m) = 0
  | 0, m => by simp [lap, (pderiv_zero_order _ m).1, (pderiv_zero_order _ m).2]
  | 1, m => by
    have z := fun j m => (pderiv_zero_order (pderiv j) m)
    cases m with
    | zero =>
      simp only [lap, Fin.sum_univ_three, (pc_d0 0).1, (pc_d0 0).2.1, (pc_d0 0).2.2, ps, Ss_zero, map_zero, map_neg,
        (z _ _).1, (z _ _).2]
      simp
    | succ m =>
      simp only [lap, Fin.sum_univ_three, (pc_d 0 m).1, (pc_d 0 m).2.1, (pc_d 0 m).2.2, (ps_d 0 m).1, (ps_d 0 m).2.1,
        (ps_d 0 m).2.2, map_neg, map_sub, map_add, Derivation.map_smul, (z _ _).1, (z _ _).2]
      simp
  | l + 2, m => by
    rcases m with _ | _ | m
    · constructor
      · simp only [lap, Fin.sum_univ_three, (pc_d0 _).1, (pc_d0 _).2.1, (pc_d0 _).2.2, map_neg]
        have h1 := (pc_d l 0).1
        have h2 := (ps_d l 0).2.1
        simp only [zero_add] at h1 h2
        rw [h1, h2]
        module
      · simp [lap, ps, Ss_zero]
    · have h1 := pc_d (l + 1) 0
      have h2 := ps_d (l + 1) 0
      have a1 := pc_d l 0
      have a2 := pc_d l 1
      have b1 := ps_d l 0
      have b2 := ps_d l 1
      have c0 := pc_d0 l
      simp only [zero_add, Nat.reduceAdd] at h1 h2 a1 a2 b1 b2
      have hs : ∀ l, ps l 0 = 0 := fun l => Ss_zero _ _ _ l
      simp only [lap, Fin.sum_univ_three, h1, h2, map_neg, map_sub, map_add, Derivation.map_smul, a1, a2, b1, b2, c0, hs,
        zero_add, map_zero]
      constructor <;> module
    · have h1 := pc_d (l + 1) (m + 1)
      have h2 := ps_d (l + 1) (m + 1)
      have a1 := pc_d l m
      have a2 := pc_d l (m + 1)
      have a3 := pc_d l (m + 2)
      have b1 := ps_d l m
      have b2 := ps_d l (m + 1)
      have b3 := ps_d l (m + 2)
      simp only [add_assoc, Nat.reduceAdd] at h1 h2 a1 a2 a3 b1 b2 b3 ⊢
      simp only [lap, Fin.sum_univ_three, h1, h2, map_neg, map_sub, map_add, Derivation.map_smul, a1, a2, a3, b1, b2, b3]
      constructor <;> module

theorem lap_fh (l : ℕ) (m : ℤ) : lap (fh l m) = 0 := by
  unfold fh harm
  split_ifs <;> rw [lap_smul]
  · rw [(lap_pc_ps l 0).1, smul_zero]
  · rw [(lap_pc_ps l _).1, smul_zero]
  · rw [(lap_pc_ps l _).2, smul_zero]

end lapl

section subst
variable (r : Matrix (Fin 3) (Fin 3) ℝ)

/-- Substitution of the rotated coordinates. -/
noncomputable def sub : Pol →ₐ[ℝ] Pol := aeval (fun i => ∑ j, r i j • X j)

theorem pderiv_sub (j : Fin 3) (p : Pol) : pderiv j (sub r p) = ∑ i, r i j • sub r (pderiv i p) := by
  induction p using MvPolynomial.induction_on with
  | C a => simp [sub, MvPolynomial.algebraMap_eq]
  | add p q hp hq =>
    simp only [map_add, hp, hq, smul_add, Finset.sum_add_distrib]
  | mul_X p n hp =>
    rw [map_mul, Derivation.leibniz, hp]
    simp only [Derivation.leibniz, map_add, smul_eq_mul, map_mul]
    have h1 : pderiv j (sub r (X n)) = C (r n j) := by
      simp [sub, pderiv_X, Pi.single_apply, Algebra.smul_def, MvPolynomial.algebraMap_eq]
    rw [h1]
    have h2 : ∀ i, sub r (pderiv i (X n : Pol)) = if i = n then 1 else 0 := by
      intro i
      rw [pderiv_X]
      by_cases h : i = n
      · subst h; simp
      · rw [if_neg h, Pi.single_eq_of_ne (Ne.symm h), map_zero]
    simp only [h2, smul_add, Finset.sum_add_distrib]
    simp only [mul_ite, mul_one, mul_zero, smul_ite, smul_zero, Finset.sum_ite_eq', Finset.mem_univ, if_true]
    rw [Finset.mul_sum, MvPolynomial.smul_eq_C_mul]
    congr 1
    · ring
    · exact Finset.sum_congr rfl fun i _ => by rw [mul_smul_comm]

theorem lap_sub_subst (hr : r * r.transpose = 1) (p : Pol) : lap (sub r p) = sub r (lap p) := by
  have h : ∀ i k, ∑ j, r i j * r k j = if i = k then 1 else 0 := by
    intro i k
    have := congrFun (congrFun hr i) k
    rw [Matrix.mul_apply, Matrix.one_apply] at this
    simpa [Matrix.transpose_apply] using this
  unfold lap
  calc ∑ j, pderiv j (pderiv j (sub r p)) = ∑ j, ∑ i, ∑ k, (r i j * r k j) • sub r (pderiv k (pderiv i p)) := by
        refine Finset.sum_congr rfl fun j _ => ?_
        rw [pderiv_sub, map_sum]
        refine Finset.sum_congr rfl fun i _ => ?_
        rw [Derivation.map_smul, pderiv_sub, Finset.smul_sum]
        exact Finset.sum_congr rfl fun k _ => by rw [smul_smul]
    _ = ∑ i, ∑ k, (∑ j, r i j * r k j) • sub r (pderiv k (pderiv i p)) := by
        rw [Finset.sum_comm]
        refine Finset.sum_congr rfl fun i _ => ?_
        rw [Finset.sum_comm]
        exact Finset.sum_congr rfl fun k _ => by rw [Finset.sum_smul]
    _ = _ := by
        simp only [h, ite_smul, one_smul, zero_smul, Finset.sum_ite_eq, Finset.mem_univ, if_true, map_sum]

end subst

/-- A polynomial with vanishing gradient and no constant term is zero. -/
theorem eq_zero_of_grad {p : Pol} (h : ∀ j, pderiv j p = 0) (h0 : constantCoeff p = 0) : p = 0 := by
  ext d
  rw [coeff_zero]
  by_cases hd : d = 0
  · subst hd; exact h0
  · obtain ⟨j, hj⟩ : ∃ j, d j ≠ 0 := by
      by_contra hc
      push Not at hc
      exact hd (Finsupp.ext hc)
    have h1 := coeff_pderiv (i := j) p (d - Finsupp.single j 1)
    rw [h j, coeff_zero] at h1
    have h2 : d - Finsupp.single j 1 + Finsupp.single j 1 = d := by
      apply tsub_add_cancel_of_le
      rw [Finsupp.single_le_iff]; omega
    rw [h2] at h1
    have h3 : (((d - Finsupp.single j 1 : Fin 3 →₀ ℕ) j : ℕ) : ℝ) + 1 ≠ 0 := by positivity
    rcases mul_eq_zero.1 h1.symm with h | h
    · exact h
    · exact absurd h h3

end Verif.Solid
