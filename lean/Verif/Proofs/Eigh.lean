import Verif.Model.Parsa
import Mathlib.Analysis.Matrix.Spectrum
import Mathlib.Data.Fin.Tuple.Sort
import Mathlib.Algebra.Order.Star.Real
import Mathlib.Tactic

/-! Linear algebra behind the covariance tools: existence and uniqueness of the sorted eigenvalue decomposition, constrained minimum variance. -/

namespace Verif.Parsa
open Matrix

theorem IsEigh.orth' {L : ℕ} {S v : Matrix (Fin L) (Fin L) ℝ} {w : Fin L → ℝ} (h : IsEigh S w v) : v * vᵀ = 1 := mul_eq_one_comm.mp h.orth

/-- `np.linalg.eigh` can meet its specification for every symmetric matrix. -/
theorem exists_eigh {L : ℕ} (S : Matrix (Fin L) (Fin L) ℝ) (hS : Sᵀ = S) : ∃ w v, IsEigh S w v := by
  have hH : S.IsHermitian := by rw [IsHermitian, conjTranspose_eq_transpose_of_trivial]; exact hS
  let U : Matrix (Fin L) (Fin L) ℝ := hH.eigenvectorUnitary
  have hU : Uᵀ * U = 1 := by
    have := Unitary.star_mul_self_of_mem hH.eigenvectorUnitary.2
    rwa [star_eq_conjTranspose, conjTranspose_eq_transpose_of_trivial] at this
  have hdec : S = U * diagonal hH.eigenvalues * Uᵀ := by
    have h := hH.spectral_theorem
    rw [Unitary.conjStarAlgAut_apply] at h
    conv_lhs => rw [h]
    rw [← conjTranspose_eq_transpose_of_trivial U, ← star_eq_conjTranspose]
    rfl
  let σ := Tuple.sort hH.eigenvalues
  refine ⟨hH.eigenvalues ∘ σ, U.submatrix id σ, Tuple.monotone_sort _, ?_, ?_⟩
  · rw [transpose_submatrix, submatrix_mul _ _ σ id σ Function.bijective_id |>.symm, hU]
    ext i j
    simp [one_apply]
  · conv_lhs => rw [hdec]
    rw [transpose_submatrix, ← submatrix_diagonal_equiv, submatrix_mul_equiv, submatrix_mul_equiv, submatrix_id_id]

/-- Two ascending vectors with the same characteristic product are equal. -/
theorem eq_of_prod {L : ℕ} (w w' : Fin L → ℝ) (hw : Monotone w) (hw' : Monotone w')
    (h : ∏ i, (Polynomial.X - Polynomial.C (w i)) = ∏ i, (Polynomial.X - Polynomial.C (w' i))) : w = w' := by
  have hr : ∀ u : Fin L → ℝ, (∏ i, (Polynomial.X - Polynomial.C (u i))).roots = Finset.univ.val.map u := by
    intro u
    have := Polynomial.roots_multiset_prod_X_sub_C (Finset.univ.val.map u)
    rwa [Multiset.map_map] at this
  have hm : Finset.univ.val.map w = Finset.univ.val.map w' := by rw [← hr w, ← hr w', h]
  have hl : (List.ofFn w).Perm (List.ofFn w') := by
    rw [← Multiset.coe_eq_coe]
    have e : ∀ u : Fin L → ℝ, (Finset.univ.val.map u) = (List.ofFn u : Multiset ℝ) := by
      intro u
      rw [List.ofFn_eq_map, ← Multiset.map_coe]
      rfl
    rw [← e w, ← e w', hm]
  have := hl.eq_of_pairwise (fun a b _ _ h1 h2 => le_antisymm h1 h2) (List.pairwise_ofFn.mpr fun i j hij => hw hij.le) (List.pairwise_ofFn.mpr fun i j hij => hw' hij.le)
  exact List.ofFn_injective this

theorem charpoly_conj {L : ℕ} (v : Matrix (Fin L) (Fin L) ℝ) (d : Fin L → ℝ) (hv : vᵀ * v = 1) :
    (v * diagonal d * vᵀ).charpoly = ∏ i, (Polynomial.X - Polynomial.C (d i)) := by
  rw [charpoly_mul_comm, ← Matrix.mul_assoc, hv, Matrix.one_mul, charpoly_diagonal]

/-- Weighted projections on the last columns as a diagonal matrix. -/
theorem tail_diag {L : ℕ} (v : Matrix (Fin L) (Fin L) ℝ) (f : Fin L → ℝ) (cut : ℕ) :
    v.submatrix id (tailIdx L cut) * diagonal (fun i => f (tailIdx L cut i)) * (v.submatrix id (tailIdx L cut))ᵀ =
      v * diagonal (fun i : Fin L => if cut ≤ (i : ℕ) then f i else 0) * vᵀ := by
  ext a b
  rw [mul_apply, mul_apply]
  simp only [mul_diagonal, transpose_apply, submatrix_apply, id_eq]
  have : ∀ i : Fin L, (v a i * if cut ≤ (i : ℕ) then f i else 0) * v b i = if cut ≤ (i : ℕ) then v a i * f i * v b i else 0 := by
    intro i; split_ifs <;> ring
  rw [Finset.sum_congr rfl fun i _ => this i, ← Finset.sum_filter]
  refine Finset.sum_bij (fun i _ => tailIdx L cut i) ?_ ?_ ?_ ?_
  · intro i _; simp [tailIdx]
  · intro i _ j _ h
    simp only [tailIdx, Fin.mk.injEq, Nat.add_left_cancel_iff] at h
    exact Fin.ext h
  · intro j hj
    simp only [Finset.mem_filter, Finset.mem_univ, true_and] at hj
    exact ⟨⟨j - cut, by omega⟩, Finset.mem_univ _, Fin.ext (by simp [tailIdx]; omega)⟩
  · intro i _; rfl

theorem posSemidef_conj {L : ℕ} (v : Matrix (Fin L) (Fin L) ℝ) (d : Fin L → ℝ) (hd : ∀ i, 0 ≤ d i) : (v * diagonal d * vᵀ).PosSemidef := by
  have := (PosSemidef.diagonal (d := d) hd).mul_mul_conjTranspose_same v
  rwa [conjTranspose_eq_transpose_of_trivial] at this

theorem IsEigh.nonneg {L : ℕ} {S v : Matrix (Fin L) (Fin L) ℝ} {w : Fin L → ℝ} (h : IsEigh S w v) (hS : S.PosSemidef) (i : Fin L) : 0 ≤ w i := by
  have h1 := (hS.conjTranspose_mul_mul_same v).diag_nonneg (i := i)
  rw [conjTranspose_eq_transpose_of_trivial, h.decomp] at h1
  have e : vᵀ * (v * diagonal w * vᵀ) * v = diagonal w := by
    calc vᵀ * (v * diagonal w * vᵀ) * v = (vᵀ * v) * diagonal w * (vᵀ * v) := by simp only [Matrix.mul_assoc]
      _ = diagonal w := by rw [h.orth, Matrix.one_mul, Matrix.mul_one]
  rwa [e, diagonal_apply_eq] at h1

/-! ### Constrained minimum variance -/

theorem quad_add {L : ℕ} (S : Matrix (Fin L) (Fin L) ℝ) (hS : Sᵀ = S) (w d : Fin L → ℝ) :
    (w + d) ⬝ᵥ S *ᵥ (w + d) = w ⬝ᵥ S *ᵥ w + 2 * (d ⬝ᵥ S *ᵥ w) + d ⬝ᵥ S *ᵥ d := by
  have : w ⬝ᵥ S *ᵥ d = d ⬝ᵥ S *ᵥ w := by
    rw [dotProduct_mulVec, ← mulVec_transpose, hS, dotProduct_comm]
  rw [mulVec_add, add_dotProduct, dotProduct_add, dotProduct_add, this]
  ring

/-- A weight vector whose image under the covariance is a combination of constraint vectors has strictly minimal variance among all vectors with
the same constraint values. -/
theorem min_variance {L g : ℕ} (S : Matrix (Fin L) (Fin L) ℝ) (hS : S.PosDef) (V : Matrix (Fin L) (Fin g) ℝ) (w : Fin L → ℝ) (μ : Fin g → ℝ)
    (hw : S *ᵥ w = V *ᵥ μ) (u : Fin L → ℝ) (hu : u ᵥ* V = w ᵥ* V) :
    w ⬝ᵥ S *ᵥ w ≤ u ⬝ᵥ S *ᵥ u ∧ (u ⬝ᵥ S *ᵥ u = w ⬝ᵥ S *ᵥ w → u = w) := by
  have hsym : Sᵀ = S := by rw [← conjTranspose_eq_transpose_of_trivial]; exact hS.isHermitian
  have hd : (u - w) ⬝ᵥ S *ᵥ w = 0 := by
    rw [hw, dotProduct_mulVec, sub_vecMul, hu, sub_self, zero_dotProduct]
  have he := quad_add S hsym w (u - w)
  rw [add_sub_cancel, hd] at he
  have hpos : 0 ≤ (u - w) ⬝ᵥ S *ᵥ (u - w) := by
    have := hS.posSemidef.dotProduct_mulVec_nonneg (u - w)
    simpa using this
  refine ⟨by linarith, fun h => ?_⟩
  by_contra hne
  have := hS.dotProduct_mulVec_pos (x := u - w) (sub_ne_zero.mpr hne)
  simp only [star_trivial] at this
  linarith

end Verif.Parsa
