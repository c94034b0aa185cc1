import Verif.Props.SphDesigns
import Verif.Proofs.Svd
import Verif.Model.Decoder

/-!
Directions of points, and the existence of pseudo inverses.
-/

namespace Verif.Props
open Real Verif.Sph Verif.Utils Verif.Decoder

theorem dirOf_zenith (v : Vec3) : (dirOf v).2 ∈ Set.Icc 0 π := by
  unfold dirOf cart2sph
  simp only [Bool.false_eq_true, if_false]
  exact ⟨Real.arccos_nonneg _, Real.arccos_le_pi _⟩

theorem dirVec_dirOf (v : Vec3) (hv : v ≠ 0) : dirVec (dirOf v).1 (dirOf v).2 = fun c => v c / norm3 v := by
  have h0 : (v 0, v 1, v 2) ≠ (0, 0, 0) := by
    intro h
    simp only [Prod.mk.injEq] at h
    exact hv (by funext c; match c with | 0 => exact h.1 | 1 => exact h.2.1 | 2 => exact h.2.2)
  have h := C01_sph2cart_cart2sph (v 0) (v 1) (v 2) false false h0 (by simp)
  have hr : (cart2sph (v 0) (v 1) (v 2) false false).2.2 = norm3 v := by
    show √_ = √_
    congr 1
    simp only [dotProduct, Fin.sum_univ_three]; ring
  have hn := norm3_pos hv
  rw [hr] at h
  unfold dirOf
  dsimp only
  generalize (cart2sph (v 0) (v 1) (v 2) false false).1 = a at *
  generalize (cart2sph (v 0) (v 1) (v 2) false false).2.1 = z at *
  unfold sph2cart at h
  simp only [Prod.mk.injEq] at h
  unfold dirVec
  funext c
  match c with
  | 0 => show _ = v 0 / _; rw [eq_div_iff hn.ne', ← h.1]; simp; ring
  | 1 => show _ = v 1 / _; rw [eq_div_iff hn.ne', ← h.2.1]; simp; ring
  | 2 => show _ = v 2 / _; rw [eq_div_iff hn.ne', ← h.2.2]; simp; ring

theorem shVec_congr (N : ℕ) {a z a' z' : ℝ} (hz : z ∈ Set.Icc 0 π) (hz' : z' ∈ Set.Icc 0 π) (h : dirVec a z = dirVec a' z') :
    shVec N a z = shVec N a' z' := by
  funext q
  unfold shVec
  rw [realSH_dir _ _ a z hz, realSH_dir _ _ a' z' hz', h]

theorem norm3_dirVec (a z : ℝ) : norm3 (dirVec a z) = 1 := by
  unfold norm3
  rw [Real.sqrt_eq_one]
  simp only [dirVec, dotProduct, Fin.sum_univ_three, Matrix.cons_val]
  nlinarith [sin_sq_add_cos_sq a, sin_sq_add_cos_sq z]

theorem dirVec_ne_zero (a z : ℝ) : dirVec a z ≠ 0 := by
  intro h
  have := norm3_dirVec a z
  rw [h] at this
  simp [norm3] at this

theorem dirVec_dirOf_dirVec (a z : ℝ) : dirVec (dirOf (dirVec a z)).1 (dirOf (dirVec a z)).2 = dirVec a z := by
  rw [dirVec_dirOf _ (dirVec_ne_zero a z), norm3_dirVec]; simp

/-- The points of a t-design, as loudspeaker positions, are a t-design again. -/
theorem design_points {Q t : ℕ} {azi zen : Fin Q → ℝ} (hd : IsTDesign t azi zen) :
    IsTDesign t (fun l => (dirOf (dirVec (azi l) (zen l))).1) (fun l => (dirOf (dirVec (azi l) (zen l))).2) := by
  refine ⟨hd.pos, fun q => dirOf_zenith _, fun p hp => ?_⟩
  simp only [dirVec_dirOf_dirVec]
  exact hd.exact p hp

/-- Every real matrix has a pseudo inverse. -/
theorem exists_pinv {m n : ℕ} (A : Matrix (Fin m) (Fin n) ℝ) : ∃ P, IsPinv A P := by
  obtain ⟨U, V, hu, hv, σ, hσ, rfl, _⟩ := exists_svd A
  obtain ⟨τ, hτ⟩ : ∃ τ : Matrix (Fin n) (Fin m) ℝ, ∀ i j, τ i j = (σ j i)⁻¹ := ⟨fun i j => (σ j i)⁻¹, fun _ _ => rfl⟩
  have hv' : V * V.transpose = 1 := mul_eq_one_comm.1 hv
  have hst : ∀ i k, (σ * τ) i k = if i = k then (if h : (i : ℕ) < n then (if σ i ⟨i, h⟩ = 0 then 0 else 1) else 0) else 0 := by
    intro i k
    rw [Matrix.mul_apply]
    by_cases h : (i : ℕ) < n
    · rw [Finset.sum_eq_single ⟨i, h⟩]
      · rw [hτ]
        by_cases hik : i = k
        · subst hik
          by_cases h0 : σ i ⟨i, h⟩ = 0
          · simp [h0, h]
          · simp [h0, h]
        · rw [hσ k ⟨i, h⟩ (fun h => hik (Fin.ext h.symm))]; simp [hik]
      · intro j _ hj
        rw [hσ i j (fun h' => hj (Fin.ext h'.symm)), zero_mul]
      · simp
    · rw [Finset.sum_eq_zero]
      · simp [h]
      · intro j _
        rw [hσ i j (fun h' => h (h' ▸ j.2)), zero_mul]
  have hts : ∀ i k, (τ * σ) i k = if i = k then (if h : (i : ℕ) < m then (if σ ⟨i, h⟩ i = 0 then 0 else 1) else 0) else 0 := by
    intro i k
    rw [Matrix.mul_apply]
    by_cases h : (i : ℕ) < m
    · rw [Finset.sum_eq_single ⟨i, h⟩]
      · rw [hτ]
        by_cases hik : i = k
        · subst hik
          by_cases h0 : σ ⟨i, h⟩ i = 0
          · simp [h0, h]
          · simp [h0, h]
        · rw [hσ ⟨i, h⟩ k (fun h => hik (Fin.ext h))]; simp [hik]
      · intro j _ hj
        rw [hτ, hσ j i (fun h' => hj (Fin.ext h')), inv_zero, zero_mul]
      · simp
    · rw [Finset.sum_eq_zero]
      · simp [h]
      · intro j _
        rw [hτ, hσ j i (fun h' => h (h' ▸ j.2)), inv_zero, zero_mul]
  have h1 : σ * τ * σ = σ := by
    ext i j
    rw [Matrix.mul_apply, Finset.sum_eq_single i]
    · rw [hst, if_pos rfl]
      by_cases h : (i : ℕ) = j
      · have hj : (⟨i, h ▸ j.2⟩ : Fin n) = j := Fin.ext h
        rw [dif_pos (h ▸ j.2), hj]
        split_ifs with h0
        · rw [h0, zero_mul]
        · rw [one_mul]
      · rw [hσ i j h, mul_zero]
    · intro k _ hk; rw [hst, if_neg (Ne.symm hk), zero_mul]
    · simp
  have h2 : τ * σ * τ = τ := by
    ext i j
    rw [Matrix.mul_apply, Finset.sum_eq_single i]
    · rw [hts, if_pos rfl]
      by_cases h : (i : ℕ) = j
      · have hj : (⟨i, h ▸ j.2⟩ : Fin m) = j := Fin.ext h
        rw [dif_pos (h ▸ j.2), hj, hτ]
        split_ifs with h0
        · rw [h0, zero_mul, inv_zero]
        · rw [one_mul]
      · rw [hτ, hσ j i (Ne.symm h), inv_zero, mul_zero]
    · intro k _ hk; rw [hts, if_neg (Ne.symm hk), zero_mul]
    · simp
  have h3 : (σ * τ).transpose = σ * τ := by
    ext i k
    rw [Matrix.transpose_apply, hst, hst]
    by_cases hik : i = k
    · subst hik; rfl
    · rw [if_neg hik, if_neg (Ne.symm hik)]
  have h4 : (τ * σ).transpose = τ * σ := by
    ext i k
    rw [Matrix.transpose_apply, hts, hts]
    by_cases hik : i = k
    · subst hik; rfl
    · rw [if_neg hik, if_neg (Ne.symm hik)]
  have e1 : U * σ * V * (V.transpose * τ * U.transpose) = U * (σ * τ) * U.transpose := by
    calc _ = U * σ * (V * V.transpose) * τ * U.transpose := by simp only [Matrix.mul_assoc]
      _ = _ := by rw [hv', Matrix.mul_one]; simp only [Matrix.mul_assoc]
  have e2 : V.transpose * τ * U.transpose * (U * σ * V) = V.transpose * (τ * σ) * V := by
    calc _ = V.transpose * τ * (U.transpose * U) * σ * V := by simp only [Matrix.mul_assoc]
      _ = _ := by rw [hu, Matrix.mul_one]; simp only [Matrix.mul_assoc]
  refine ⟨V.transpose * τ * U.transpose, ?_, ?_, ?_, ?_⟩
  · rw [e1]
    calc _ = U * (σ * τ) * (U.transpose * U) * σ * V := by simp only [Matrix.mul_assoc]
      _ = U * (σ * τ * σ) * V := by rw [hu, Matrix.mul_one]; simp only [Matrix.mul_assoc]
      _ = _ := by rw [h1]
  · rw [e2]
    calc _ = V.transpose * (τ * σ) * (V * V.transpose) * τ * U.transpose := by simp only [Matrix.mul_assoc]
      _ = V.transpose * (τ * σ * τ) * U.transpose := by rw [hv', Matrix.mul_one]; simp only [Matrix.mul_assoc]
      _ = _ := by rw [h2]
  · rw [e1, Matrix.transpose_mul, Matrix.transpose_mul, Matrix.transpose_transpose, h3]; simp only [Matrix.mul_assoc]
  · rw [e2, Matrix.transpose_mul, Matrix.transpose_mul, Matrix.transpose_transpose, h4]; simp only [Matrix.mul_assoc]

/-- `C24_pinv`: the corners of a cube, order one. -/
example : ∃ (azi zen : Fin 8 → ℝ) (pinv : Matrix (Fin 8) (Fin ((1 + 1) ^ 2)) ℝ → Matrix (Fin ((1 + 1) ^ 2)) (Fin 8) ℝ)
    (A : Matrix (Fin 8) (Fin ((1 + 1) ^ 2)) ℝ) (B : Matrix (Fin ((1 + 1) ^ 2)) (Fin 8) ℝ),
    designFilterbank (J := 7) 1 azi zen (fun _ => 1) .pinv pinv = .ok (A, B) ∧ B * A = 1 := by
  obtain ⟨azi, zen, hd⟩ := cube_design
  choose pinv hpinv using fun A : Matrix (Fin 8) (Fin ((1 + 1) ^ 2)) ℝ => exists_pinv A
  obtain ⟨A, B, h1, h2, -⟩ := C24_pinv (J := 7) (N := 1) azi zen (fun _ => 1) pinv hpinv (by simp only [one_mul]; exact design_rank hd (by norm_num))
  exact ⟨azi, zen, pinv, A, B, h1, h2⟩

end Verif.Props
