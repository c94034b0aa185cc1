import Verif.Proofs.SolidOrth

/-!
Orthogonality of the matrices of the recursion, by induction over the order.
-/

namespace Verif.Solid
open Finset Nat Real MvPolynomial

variable {r : Matrix (Fin 3) (Fin 3) ℝ} {R : ℕ → ℤ → ℤ → ℝ}

theorem G_gram (l : ℕ) (n n' : ℤ) (hn : n ∈ I (l + 1)) (hn' : n' ∈ I (l + 1)) :
    ∑ j, ∑ ν ∈ I l, G l j n ν * G l j n' ν = if n = n' then ((l : ℝ) + 1) * (2 * l + 1) else 0 := by
  have a1 : |n| ≤ (l : ℤ) + 1 := by have := mem_I.1 hn; push_cast at this; exact this
  have a2 : |n'| ≤ (l : ℤ) + 1 := by have := mem_I.1 hn'; push_cast at this; exact this
  rw [← row_orth l n n' a1 a2]
  have h : ∀ j ν, G l j n ν * G l j n' ν = rowComb (l + 1) n (fun i a => (if i = j ∧ a = ν then 1 else 0) * G l j n' ν) :=
    fun j ν => (rowComb_mul_right _ _ _ _).symm
  simp only [h]
  rw [← rowComb_congr a1 (Q := fun i a => ∑ j, ∑ ν ∈ I l, (if i = j ∧ a = ν then (1 : ℝ) else 0) * G l j n' ν)]
  · rw [rowComb_sum]
    exact Finset.sum_congr rfl fun j _ => (rowComb_sum _ _ _ _).symm
  · intro i a ha
    rw [Finset.sum_eq_single i]
    · simp only [true_and, ite_mul, one_mul, zero_mul]
      rw [Finset.sum_ite_eq, if_pos (mem_I.2 ha)]
    · intro j _ hj
      exact Finset.sum_eq_zero fun ν _ => by rw [if_neg (fun h => hj h.1.symm), zero_mul]
    · simp

/-- The recursion intertwines the gradients of consecutive orders. -/
theorem intertwine (hr : r * r.transpose = 1) (hR : RotRec r R) (k : ℕ) (m : ℤ) (hm : m ∈ I (k + 2)) (j : Fin 3)
    (ν : ℤ) (hν : ν ∈ I (k + 1)) :
    ∑ n ∈ I (k + 2), R (k + 2) m n * G (k + 1) j n ν = rowComb (k + 2) m (fun i a => r i j * R (k + 1) a ν) := by
  have hmabs : |m| ≤ ((k + 1 : ℕ) : ℤ) + 1 := by have := mem_I.1 hm; push_cast at this ⊢; omega
  have h := congrArg (pderiv j) (rot_main hr hR (k + 1) m hm)
  rw [pderiv_sub_fh, rowComb_congr (Q' := fun i a => ∑ ν ∈ I (k + 1), (r i j * R (k + 1) a ν) • fh (k + 1) ν) hmabs] at h
  · rw [rowComb_sum, map_sum] at h
    simp only [rowComb_smul_right, Derivation.map_smul, pderiv_fh, Finset.smul_sum, smul_smul] at h
    rw [Finset.sum_comm (s := I (k + 1 + 1))] at h
    simp only [← Finset.sum_smul] at h
    rw [← sub_eq_zero, ← Finset.sum_sub_distrib] at h
    simp only [← sub_smul] at h
    have := fh_indep _ _ h ν hν
    linarith
  · intro i a ha
    rw [rot_main hr hR k a (mem_I.2 ha), Finset.smul_sum]
    exact Finset.sum_congr rfl fun ν _ => by rw [smul_smul]

theorem rowComb_rowComb_mul (l : ℕ) (m m' : ℤ) (P Q : Fin 3 → ℤ → ℝ) :
    rowComb l m P * rowComb l m' Q = rowComb l m (fun i a => rowComb l m' (fun i' a' => P i a * Q i' a')) := by
  rw [← rowComb_mul_right]
  congr 1
  funext i a
  have h := rowComb_smul l m' (P i a) Q
  simp only [smul_eq_mul] at h
  exact h.symm

theorem rot_orth (hr : r * r.transpose = 1) (hR : RotRec r R) : ∀ k : ℕ, ∀ m ∈ I (k + 1), ∀ m' ∈ I (k + 1),
    ∑ n ∈ I (k + 1), R (k + 1) m n * R (k + 1) m' n = if m = m' then 1 else 0
  | 0, m, hm, m', hm' => by
    have hI : I 1 = {idx 0, idx 1, idx 2} := by decide
    have h : ∀ i k, ∑ j, r i j * r k j = if i = k then 1 else 0 := by
      intro i k
      have := congrFun (congrFun hr i) k
      rw [Matrix.mul_apply, Matrix.one_apply] at this
      simpa [Matrix.transpose_apply] using this
    have key : ∀ i k, ∑ n ∈ I 1, R 1 (idx i) n * R 1 (idx k) n = if idx i = idx k then 1 else 0 := by
      intro i k
      rw [hI, Finset.sum_insert (by decide), Finset.sum_insert (by decide), Finset.sum_singleton]
      simp only [hR.one]
      have := h i k
      rw [Fin.sum_univ_three] at this
      rw [← add_assoc, this]
      have hinj : (i = k) ↔ idx i = idx k := by clear this; revert i k; decide
      simp only [hinj]
    have e1 : m ∈ ({idx 0, idx 1, idx 2} : Finset ℤ) := by rw [← hI]; exact hm
    have e2 : m' ∈ ({idx 0, idx 1, idx 2} : Finset ℤ) := by rw [← hI]; exact hm'
    simp only [Finset.mem_insert, Finset.mem_singleton] at e1 e2
    rcases e1 with e1 | e1 | e1 <;> rcases e2 with e2 | e2 | e2 <;> rw [e1, e2] <;> exact key _ _
  | k + 1, m, hm, m', hm' => by
    have h3 : ∀ i k, ∑ j, r i j * r k j = if i = k then 1 else 0 := by
      intro i k
      have := congrFun (congrFun hr i) k
      rw [Matrix.mul_apply, Matrix.one_apply] at this
      simpa [Matrix.transpose_apply] using this
    have ih := rot_orth hr hR k
    set l := k + 1 with hl
    have hm1 : |m| ≤ (l : ℤ) + 1 := by have := mem_I.1 hm; push_cast at this; exact this
    have hm2 : |m'| ≤ (l : ℤ) + 1 := by have := mem_I.1 hm'; push_cast at this; exact this
    have hK : ((l : ℝ) + 1) * (2 * l + 1) ≠ 0 := by positivity
    have e1 : (∑ n ∈ I (l + 1), R (l + 1) m n * R (l + 1) m' n) * (((l : ℝ) + 1) * (2 * l + 1))
        = ∑ j, ∑ ν ∈ I l, (∑ n ∈ I (l + 1), R (l + 1) m n * G l j n ν) * (∑ n ∈ I (l + 1), R (l + 1) m' n * G l j n ν) := by
      symm
      calc _ = ∑ j, ∑ ν ∈ I l, ∑ n ∈ I (l + 1), ∑ n' ∈ I (l + 1),
            (R (l + 1) m n * R (l + 1) m' n') * (G l j n ν * G l j n' ν) := by
            refine Finset.sum_congr rfl fun j _ => Finset.sum_congr rfl fun ν _ => ?_
            rw [Finset.sum_mul_sum]
            refine Finset.sum_congr rfl fun n _ => Finset.sum_congr rfl fun n' _ => by ring
        _ = ∑ n ∈ I (l + 1), ∑ n' ∈ I (l + 1), (R (l + 1) m n * R (l + 1) m' n') * ∑ j, ∑ ν ∈ I l, G l j n ν * G l j n' ν := by
            simp only [Finset.mul_sum]
            rw [Finset.sum_congr rfl (fun j _ => Finset.sum_comm), Finset.sum_comm]
            refine Finset.sum_congr rfl fun n _ => ?_
            rw [Finset.sum_congr rfl (fun j _ => Finset.sum_comm), Finset.sum_comm]
        _ = _ := by
            rw [Finset.sum_mul]
            refine Finset.sum_congr rfl fun n hn => ?_
            rw [Finset.sum_congr rfl (fun n' hn' => by rw [G_gram l n n' hn hn'])]
            simp only [mul_ite, mul_zero]
            rw [Finset.sum_ite_eq, if_pos hn]
    have e2 : ∑ j, ∑ ν ∈ I l, (∑ n ∈ I (l + 1), R (l + 1) m n * G l j n ν) * (∑ n ∈ I (l + 1), R (l + 1) m' n * G l j n ν)
        = rowComb (l + 1) m (fun i a => rowComb (l + 1) m' (fun i' a' =>
            (∑ j, r i j * r i' j) * ∑ ν ∈ I l, R l a ν * R l a' ν)) := by
      have : ∀ j, ∀ ν ∈ I l, (∑ n ∈ I (l + 1), R (l + 1) m n * G l j n ν) * (∑ n ∈ I (l + 1), R (l + 1) m' n * G l j n ν)
          = rowComb (l + 1) m (fun i a => rowComb (l + 1) m' (fun i' a' => (r i j * r i' j) * (R l a ν * R l a' ν))) := by
        intro j ν hν
        rw [intertwine hr hR k m hm j ν hν, intertwine hr hR k m' hm' j ν hν, rowComb_rowComb_mul]
        congr 1; funext i a; congr 1; funext i' a'; ring
      rw [Finset.sum_congr rfl (fun j _ => Finset.sum_congr rfl (this j))]
      simp only [← rowComb_sum]
      congr 1; funext i a; congr 1; funext i' a'
      rw [Finset.sum_mul_sum]
    have e3 : rowComb (l + 1) m (fun i a => rowComb (l + 1) m' (fun i' a' =>
            (∑ j, r i j * r i' j) * ∑ ν ∈ I l, R l a ν * R l a' ν)) = if m = m' then ((l : ℝ) + 1) * (2 * l + 1) else 0 := by
      rw [← row_orth l m m' hm1 hm2]
      apply rowComb_congr hm1
      intro i a ha
      unfold G
      apply rowComb_congr hm2
      intro i' a' ha'
      rw [h3, ih a (mem_I.2 ha) a' (mem_I.2 ha')]
      by_cases h1 : i = i' <;> by_cases h2 : a = a' <;> simp [h1, h2, Ne.symm]
    rw [e2, e3] at e1
    split_ifs with h
    · rw [if_pos h] at e1
      exact mul_right_cancel₀ hK (by rw [e1, one_mul])
    · rw [if_neg h] at e1
      exact (mul_eq_zero.1 e1).resolve_right hK

end Verif.Solid
