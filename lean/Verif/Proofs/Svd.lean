import Mathlib.Tactic
import Mathlib.Analysis.Matrix.Spectrum
import Mathlib.Analysis.InnerProductSpace.PiL2

/-!
The specification of `np.linalg.svd` used by `epad`, and the fact that every real matrix has such a decomposition.
-/

namespace Verif.Props

/-- Specification of the factors of `np.linalg.svd(A)`: `A = U Σ VH` with `U`, `VH` orthogonal and `Σ` diagonal with entries that are not negative. -/
structure IsSvd {m n : ℕ} (A : Matrix (Fin m) (Fin n) ℝ) (U : Matrix (Fin m) (Fin m) ℝ) (VH : Matrix (Fin n) (Fin n) ℝ) : Prop where
  u : U.transpose * U = 1
  vh : VH.transpose * VH = 1
  diag : ∃ σ : Matrix (Fin m) (Fin n) ℝ, (∀ (i : Fin m) (j : Fin n), (i : ℕ) ≠ j → σ i j = 0) ∧ A = U * σ * VH ∧ ∀ i j, 0 ≤ σ i j

theorem exists_basis {m n : ℕ} (hmn : n ≤ m) (w : Fin n → EuclideanSpace ℝ (Fin m)) (hw : ∀ i j, i ≠ j → inner ℝ (w i) (w j) = 0) :
    ∃ u : OrthonormalBasis (Fin m) ℝ (EuclideanSpace ℝ (Fin m)), ∀ j, w j = ‖w j‖ • u (Fin.castLE hmn j) := by
  obtain ⟨v, hv⟩ : ∃ v : Fin m → EuclideanSpace ℝ (Fin m), ∀ (i : Fin m) (h : (i : ℕ) < n), v i = (‖w ⟨i, h⟩‖)⁻¹ • w ⟨i, h⟩ :=
    ⟨fun i => if h : (i : ℕ) < n then (‖w ⟨i, h⟩‖)⁻¹ • w ⟨i, h⟩ else 0, fun i h => dif_pos h⟩
  have ho : Orthonormal ℝ (({i | ∃ h : (i : ℕ) < n, w ⟨i, h⟩ ≠ 0} : Set (Fin m)).restrict v) := by
    rw [orthonormal_iff_ite]
    rintro ⟨i, hi, hi0⟩ ⟨j, hj, hj0⟩
    show inner ℝ (v i) (v j) = _
    rw [hv i hi, hv j hj, real_inner_smul_left, real_inner_smul_right]
    split_ifs with hij
    · have hij : i = j := congrArg Subtype.val hij
      subst hij
      rw [real_inner_self_eq_norm_sq]
      have := norm_ne_zero_iff.2 hi0
      field_simp
    · rw [hw _ _ (fun h => hij (Subtype.ext (Fin.ext (by simpa using h)))), mul_zero, mul_zero]
  obtain ⟨u, hu⟩ := ho.exists_orthonormalBasis_extension_of_card_eq (by simp)
  refine ⟨u, fun j => ?_⟩
  by_cases h0 : w j = 0
  · rw [h0]; simp
  · rw [hu (Fin.castLE hmn j) ⟨j.2, h0⟩, hv (Fin.castLE hmn j) j.2]
    have := norm_ne_zero_iff.2 h0
    show w j = ‖w j‖ • (‖w j‖)⁻¹ • w j
    rw [smul_smul, mul_inv_cancel₀ this, one_smul]

open Matrix in
theorem exists_svd_tall {m n : ℕ} (hmn : n ≤ m) (A : Matrix (Fin m) (Fin n) ℝ) : ∃ U VH, IsSvd A U VH := by
  have hG : (Aᵀ * A).IsHermitian := by
    rw [Matrix.IsHermitian, conjTranspose_eq_transpose_of_trivial, transpose_mul, transpose_transpose]
  let b := hG.eigenvectorBasis
  obtain ⟨w, hwd⟩ : ∃ w : Fin n → EuclideanSpace ℝ (Fin m), ∀ j, (w j).ofLp = A *ᵥ (b j).ofLp :=
    ⟨fun j => WithLp.toLp 2 (A *ᵥ (b j).ofLp), fun _ => rfl⟩
  have hb : ∀ i j, (b i).ofLp ⬝ᵥ (b j).ofLp = if i = j then 1 else 0 := by
    intro i j
    have := orthonormal_iff_ite.1 b.orthonormal j i
    rw [EuclideanSpace.inner_eq_star_dotProduct, star_trivial] at this
    rw [this]; simp [eq_comm]
  have hw : ∀ i j, i ≠ j → inner ℝ (w i) (w j) = 0 := by
    intro i j hij
    rw [EuclideanSpace.inner_eq_star_dotProduct, star_trivial]
    rw [hwd, hwd, dotProduct_mulVec, ← mulVec_transpose, mulVec_mulVec, hG.mulVec_eigenvectorBasis j, smul_dotProduct]
    have := hb j i
    rw [if_neg (Ne.symm hij)] at this
    show _ • ((b j).ofLp ⬝ᵥ (b i).ofLp) = 0
    rw [this, smul_zero]
  obtain ⟨u, hu⟩ := exists_basis hmn w hw
  refine ⟨Matrix.of fun k i => (u i).ofLp k, Matrix.of fun j k => (b j).ofLp k, ⟨?_, ?_, ?_⟩⟩
  · ext i j
    rw [mul_apply, one_apply]
    have := orthonormal_iff_ite.1 u.orthonormal j i
    rw [EuclideanSpace.inner_eq_star_dotProduct, star_trivial] at this
    simp only [dotProduct] at this
    simp only [transpose_apply, of_apply]
    rw [this]; simp [eq_comm]
  · rw [mul_eq_one_comm]
    ext i j
    rw [mul_apply, one_apply, ← hb i j]
    rfl
  · refine ⟨Matrix.of fun i j => if (i : ℕ) = j then ‖w j‖ else 0, fun i j hij => by simp [hij], ?_, fun i j => by simp only [of_apply]; split <;> [exact norm_nonneg _; exact le_rfl]⟩
    have h1 : A * (Matrix.of fun j k => (b j).ofLp k)ᵀ
        = (Matrix.of fun k i => (u i).ofLp k) * Matrix.of fun (i : Fin m) (j : Fin n) => if (i : ℕ) = j then ‖w j‖ else 0 := by
      ext k j
      rw [mul_apply, mul_apply, Finset.sum_eq_single (Fin.castLE hmn j)]
      · have h2 : (w j).ofLp k = (u (Fin.castLE hmn j)).ofLp k * ‖w j‖ := by
          conv_lhs => rw [hu j]
          rw [PiLp.smul_apply, smul_eq_mul, mul_comm]
        simp only [of_apply, Fin.val_castLE, if_true]
        rw [← h2, hwd]; rfl
      · intro i _ hi
        simp only [of_apply]
        rw [if_neg (show ¬ (i : ℕ) = j from fun h => hi (Fin.ext h)), mul_zero]
      · simp
    rw [← h1, Matrix.mul_assoc]
    have h3 : (Matrix.of fun j k => (b j).ofLp k)ᵀ * (Matrix.of fun j k => (b j).ofLp k) = (1 : Matrix (Fin n) (Fin n) ℝ) := by
      rw [mul_eq_one_comm]
      ext i j
      rw [mul_apply, one_apply, ← hb i j]
      rfl
    rw [h3, Matrix.mul_one]

/-- Every real matrix has a singular value decomposition. -/
theorem exists_svd {m n : ℕ} (A : Matrix (Fin m) (Fin n) ℝ) : ∃ U VH, IsSvd A U VH := by
  rcases le_total n m with h | h
  · exact exists_svd_tall h A
  · obtain ⟨U, VH, h1, h2, σ, h3, h4, h5⟩ := exists_svd_tall h A.transpose
    refine ⟨VH.transpose, U.transpose, ?_, ?_, σ.transpose, fun i j hij => h3 j i (Ne.symm hij), ?_, fun i j => h5 j i⟩
    · rw [Matrix.transpose_transpose, mul_eq_one_comm, h2]
    · rw [Matrix.transpose_transpose, mul_eq_one_comm, h1]
    · rw [← Matrix.transpose_transpose A, h4, Matrix.transpose_mul, Matrix.transpose_mul, Matrix.mul_assoc]

end Verif.Props
