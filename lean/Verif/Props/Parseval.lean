import Verif.Props.GridWeights
import Verif.Props.ShComplex

/-!
C152: the spherical harmonics transform on the provided grids is an orthogonal projection: positive weights, Parseval,
best approximation.
-/

namespace Verif.Props
open Real MvPolynomial Verif.Sph Verif.Grids

/-! ### Positive weights -/

/-- A lower bound for the Fejér sum of the polar weights. -/
theorem fejer_bound (n : ℕ) (t : ℝ) : (1 - cos ((2 * n + 2) * t)) / (2 * n + 1)
    ≤ 2 * (sin t * ((List.range (n + 1)).map fun (r : ℕ) => sin ((2 * r + 1) * t) / (2 * r + 1)).sum) := by
  induction n with
  | zero =>
    have h : cos ((2 * (0 : ℕ) + 2) * t) = 1 - 2 * sin t ^ 2 := by
      have := cos_two_mul t
      have := sin_sq_add_cos_sq t
      simp only [Nat.cast_zero, mul_zero, zero_add]
      linarith
    rw [h]
    simp
    nlinarith
  | succ n ih =>
    rw [List.range_succ, List.map_append, List.sum_append, List.map_singleton, List.sum_singleton, mul_add, mul_add]
    have e : 2 * (sin t * (sin ((2 * ((n + 1 : ℕ) : ℝ) + 1) * t) / (2 * ((n + 1 : ℕ) : ℝ) + 1)))
        = (cos ((2 * n + 2) * t) - cos ((2 * ((n + 1 : ℕ) : ℝ) + 2) * t)) / (2 * n + 3) := by
      have h1 : cos ((2 * n + 2) * t) = cos ((2 * n + 3) * t) * cos t + sin ((2 * n + 3) * t) * sin t := by
        rw [← cos_sub]; congr 1; ring
      have h2 : cos ((2 * ((n + 1 : ℕ) : ℝ) + 2) * t) = cos ((2 * n + 3) * t) * cos t - sin ((2 * n + 3) * t) * sin t := by
        rw [← cos_add]; congr 1; push_cast; ring
      rw [h1, h2]
      push_cast
      rw [show (2 * ((n : ℝ) + 1) + 1) = 2 * n + 3 by ring]
      field_simp
      ring
    rw [e]
    have hc := cos_le_one ((2 * n + 2) * t)
    have hle : (1 - cos ((2 * n + 2) * t)) / (2 * n + 3) ≤ (1 - cos ((2 * n + 2) * t)) / (2 * (n : ℝ) + 1) :=
      div_le_div_of_nonneg_left (by linarith) (by positivity) (by linarith)
    have hs : (1 - cos ((2 * ((n + 1 : ℕ) : ℝ) + 2) * t)) / (2 * ((n + 1 : ℕ) : ℝ) + 1)
        = (1 - cos ((2 * n + 2) * t)) / (2 * n + 3) + (cos ((2 * n + 2) * t) - cos ((2 * ((n + 1 : ℕ) : ℝ) + 2) * t)) / (2 * n + 3) := by
      rw [← add_div]
      congr 1
      · ring
      · push_cast; ring
    rw [hs]
    linarith

theorem equalAngleWeight_pos (n : ℕ) {i : ℕ} (hi : i < 2 * n + 2) : 0 < equalAngleWeight n ((equalAngleZen n).getD i 0) := by
  rw [equalAngleZen_getD n hi]
  obtain ⟨t, ht⟩ : ∃ t, t = (i : ℝ) * (π / ((2 * n + 2 : ℕ) : ℝ)) + π / ((2 * n + 2 : ℕ) : ℝ) / 2 := ⟨_, rfl⟩
  rw [← ht]
  have hn : ((2 * n + 2 : ℕ) : ℝ) ≠ 0 := by positivity
  have hc : cos ((2 * n + 2) * t) = 0 := by
    have : (2 * (n : ℝ) + 2) * t = i * π + π / 2 := by
      rw [ht]
      push_cast at hn ⊢
      field_simp
    rw [this, cos_add_pi_div_two, sin_nat_mul_pi, neg_zero]
  have h := fejer_bound n t
  rw [hc, sub_zero] at h
  have h1 : (0 : ℝ) < 1 / (2 * n + 1) := by positivity
  unfold equalAngleWeight
  rw [mul_assoc]
  have hp : (0 : ℝ) < 2 * π / (n + 1) := by have := pi_pos; positivity
  exact mul_pos hp (by linarith)

/-- **C152** All weights of `equal_angle` are positive. -/
theorem C152_equal_angle_positive (n : ℕ) : ∀ w ∈ (equalAngle n).2.2, 0 < w := by
  intro w hw
  simp only [equalAngle, List.mem_map] at hw
  obtain ⟨v, hv, rfl⟩ := hw
  have hv := mem_npRepeat hv
  rw [List.mem_map] at hv
  obtain ⟨z, hz, rfl⟩ := hv
  obtain ⟨i, hi, rfl⟩ := List.getElem_of_mem hz
  have := equalAngleWeight_pos n (by rw [equalAngleZen_length] at hi; exact hi)
  rw [List.getD_eq_getElem _ _ hi] at this
  positivity

/-- The weights of a Gauss-Legendre rule are positive, whatever routine computed them. -/
theorem gauss_weight_pos {m : ℕ} {r : List ℝ × List ℝ} (hr : IsGaussLegendre m r) {i : ℕ} (hi : i < m) : 0 < r.2.getD i 0 := by
  classical
  obtain ⟨p, hp⟩ : ∃ p : Polynomial ℝ, p = ∏ j ∈ (Finset.range m).erase i, (Polynomial.X - Polynomial.C (r.1.getD j 0)) ^ 2 := ⟨_, rfl⟩
  have hmon : p.Monic := by
    rw [hp]
    exact Polynomial.monic_prod_of_monic _ _ fun j _ => (Polynomial.monic_X_sub_C _).pow 2
  have hdeg : p.natDegree ≤ 2 * m - 1 := by
    rw [hp, Polynomial.natDegree_prod_of_monic _ _ fun j _ => (Polynomial.monic_X_sub_C _).pow 2]
    simp only [Polynomial.natDegree_pow, Polynomial.natDegree_X_sub_C, mul_one, Finset.sum_const, smul_eq_mul]
    rw [Finset.card_erase_of_mem (Finset.mem_range.2 hi), Finset.card_range]
    omega
  have hev : ∀ x, p.eval x = ∏ j ∈ (Finset.range m).erase i, (x - r.1.getD j 0) ^ 2 := by
    intro x; rw [hp, Polynomial.eval_prod]; simp
  have hnn : ∀ x, 0 ≤ p.eval x := fun x => by rw [hev]; exact Finset.prod_nonneg fun j _ => sq_nonneg _
  have hint : 0 < ∫ x in (-1 : ℝ)..1, p.eval x := by
    have hex : ∃ c ∈ Set.Ioo (-1 : ℝ) 1, p.eval c ≠ 0 := by
      by_contra hn
      push Not at hn
      have hfin := p.roots.toFinset.finite_toSet
      refine (Set.Ioo_infinite (show (-1 : ℝ) < 1 by norm_num)) (hfin.subset fun x hx => ?_)
      simp only [Finset.mem_coe, Multiset.mem_toFinset]
      exact (Polynomial.mem_roots hmon.ne_zero).2 (hn x hx)
    obtain ⟨c, hc, hc0⟩ := hex
    exact intervalIntegral.integral_pos (by norm_num) (Polynomial.continuous_aeval p |>.congr (fun x => by simp [Polynomial.aeval_def, Polynomial.eval₂_eq_eval_map]) |>.continuousOn) (fun x _ => hnn x)
      ⟨c, ⟨hc.1.le, hc.2.le⟩, lt_of_le_of_ne (hnn c) (Ne.symm hc0)⟩
  have hex := hr.exact p hdeg
  rw [zipWith_sum _ _ _ (by rw [hr.nodes, hr.weights]), hr.nodes, Finset.sum_eq_single i] at hex
  · have h0 : 0 < r.2.getD i 0 * p.eval (r.1.getD i 0) := by rw [hex]; exact hint
    exact (pos_iff_pos_of_mul_pos h0).2 (lt_of_le_of_ne (hnn _) fun h => by rw [← h, mul_zero] at h0; exact lt_irrefl _ h0)
  · intro j hj hji
    rw [hev, Finset.prod_eq_zero (Finset.mem_erase.2 ⟨hji, hj⟩) (by simp), mul_zero]
  · intro h; exact absurd (Finset.mem_range.2 hi) h

/-- **C152** All weights of `gauss` are positive. -/
theorem C152_gauss_positive (leggauss : ℕ → List ℝ × List ℝ) (n : ℕ) (hl : IsGaussLegendre (n + 1) (leggauss (n + 1))) :
    ∀ w ∈ (gauss leggauss n).2.2, 0 < w := by
  intro w hw
  simp only [gauss, List.mem_map] at hw
  obtain ⟨v, hv, rfl⟩ := hw
  have hv := mem_npRepeat hv
  obtain ⟨i, hi, rfl⟩ := List.getElem_of_mem hv
  have := gauss_weight_pos hl (i := i) (by rw [← hl.weights]; exact hi)
  rw [List.getD_eq_getElem _ _ hi] at this
  have := pi_pos
  positivity

example : ∀ w ∈ (gauss (fun _ => ([-(1 / √3), 1 / √3], [1, 1])) 1).2.2, 0 < w := C152_gauss_positive _ 1 isGauss_two

/-! ### Parseval and best approximation -/

/-- The provided ways to integrate over the sphere exactly up to degree `2N`: `equal_angle(N)` and `gauss(N)` with their weights, and designs of
degree at least `2N` without. `wo` is the argument `weights` of `sht`, `w` the weights of the points in sums. -/
inductive TransformGrid (N : ℕ) {Q : ℕ} (azi zen : Fin Q → ℝ) : Option (Fin Q → ℝ) → (Fin Q → ℝ) → Prop
  | equalAngle (w : Fin Q → ℝ) (h : Grids.equalAngle N = (List.ofFn azi, List.ofFn zen, List.ofFn w)) : TransformGrid N azi zen (some w) w
  | gauss (w : Fin Q → ℝ) (leggauss : ℕ → List ℝ × List ℝ) (hl : IsGaussLegendre (N + 1) (leggauss (N + 1)))
      (h : Grids.gauss leggauss N = (List.ofFn azi, List.ofFn zen, List.ofFn w)) : TransformGrid N azi zen (some w) w
  | design (t : ℕ) (hd : IsTDesign t azi zen) (ht : 2 * N ≤ t) : TransformGrid N azi zen none fun _ => 4 * π / Q

theorem transform_pos {N Q : ℕ} {azi zen : Fin Q → ℝ} {wo : Option (Fin Q → ℝ)} {w : Fin Q → ℝ} (hg : TransformGrid N azi zen wo w) (q : Fin Q) : 0 < w q := by
  cases hg with
  | equalAngle w h => exact C152_equal_angle_positive N _ (by rw [h]; exact ofFn_mem w q)
  | gauss w leggauss hl h => exact C152_gauss_positive leggauss N hl _ (by rw [h]; exact ofFn_mem w q)
  | design t hd ht =>
    have := hd.pos
    have := pi_pos
    positivity

theorem transform_gram {N Q : ℕ} {azi zen : Fin Q → ℝ} {wo : Option (Fin Q → ℝ)} {w : Fin Q → ℝ} (hg : TransformGrid N azi zen wo w) :
    (shMat N azi zen).transpose * (Matrix.diagonal w * shMat N azi zen) = 1 := by
  cases hg with
  | equalAngle w h =>
    unfold Grids.equalAngle at h
    simp only [Prod.mk.injEq] at h
    obtain ⟨h1, h2, h3⟩ := h
    rw [map_npRepeat] at h3
    exact grid_gram azi zen w (equalAngleZen N) _ N (by simp)
      (by rw [equalAngleZen_length]; exact h1.symm) h2.symm h3.symm (equalAngle_hex N)
  | gauss w leggauss hl h =>
    unfold Grids.gauss at h
    simp only [Prod.mk.injEq] at h
    obtain ⟨h1, h2, h3⟩ := h
    rw [map_npRepeat] at h3
    exact grid_gram azi zen w _ _ N (by rw [List.length_map, List.length_map, hl.nodes, hl.weights])
      (by rw [List.length_map, hl.nodes]; exact h1.symm) h2.symm h3.symm (gauss_hex N _ hl)
  | design t hd ht => exact design_wgram hd ht

theorem transform_sht {N Q S : ℕ} {azi zen : Fin Q → ℝ} {wo : Option (Fin Q → ℝ)} {w : Fin Q → ℝ} (hg : TransformGrid N azi zen wo w)
    (f : Matrix (Fin Q) (Fin S) ℝ) : sht (shMat N azi zen) wo f = (shMat N azi zen).transpose * (Matrix.diagonal w * f) := by
  cases hg with
  | equalAngle w h => rfl
  | gauss w leggauss hl h => rfl
  | design t hd ht =>
    show ((4 * π / Q) • shMat N azi zen).transpose * f = _
    have : Matrix.diagonal (fun _ : Fin Q => 4 * π / (Q : ℝ)) = (4 * π / (Q : ℝ)) • (1 : Matrix (Fin Q) (Fin Q) ℝ) := by
      ext i j
      by_cases h : i = j <;> simp [Matrix.diagonal, h]
    rw [this, Matrix.transpose_smul, Matrix.smul_mul, Matrix.smul_mul, Matrix.one_mul, Matrix.mul_smul]

theorem inverse_eq {N S Q : ℕ} (F : Matrix (Fin ((N + 1) ^ 2)) (Fin S) ℝ) (azi zen : Fin Q → ℝ) (No : Option ℕ) (hN : No = none ∨ No = some N) :
    inverseSht F azi zen No = .ok (shMat N azi zen * F) := by
  have hsub : F.submatrix (Fin.castLE (le_refl ((N + 1) ^ 2))) id = F := by ext i j; rfl
  rcases hN with rfl | rfl
  · rw [inverseSht_none F azi zen N (C11_order_square N) le_rfl, hsub]
  · unfold inverseSht
    rw [if_neg (by simp)]
    exact (dif_pos (le_refl ((N + 1) ^ 2))).trans (by rw [hsub])

/-- **C152** Parseval: coefficients have the inner products of the functions they render, with the weights of the grid. -/
theorem C152_parseval {N Q S S' : ℕ} {azi zen : Fin Q → ℝ} {wo : Option (Fin Q → ℝ)} {w : Fin Q → ℝ} (hg : TransformGrid N azi zen wo w)
    (F : Matrix (Fin ((N + 1) ^ 2)) (Fin S) ℝ) (G : Matrix (Fin ((N + 1) ^ 2)) (Fin S') ℝ) (No : Option ℕ) (hN : No = none ∨ No = some N) :
    ∃ f g, inverseSht F azi zen No = .ok f ∧ inverseSht G azi zen No = .ok g ∧
      ∀ s s', ∑ q, w q * (f q s * g q s') = ∑ k, F k s * G k s' := by
  refine ⟨_, _, inverse_eq F azi zen No hN, inverse_eq G azi zen No hN, fun s s' => ?_⟩
  have h : ((shMat N azi zen * F).transpose * (Matrix.diagonal w * (shMat N azi zen * G))) s s' = (F.transpose * G) s s' := by
    rw [Matrix.transpose_mul, Matrix.mul_assoc, ← Matrix.mul_assoc (Matrix.diagonal w), ← Matrix.mul_assoc (shMat N azi zen).transpose, transform_gram hg, Matrix.one_mul]
  rw [Matrix.mul_apply, Matrix.mul_apply] at h
  simp only [Matrix.diagonal_mul, Matrix.transpose_apply] at h
  rw [← h]
  exact Finset.sum_congr rfl fun q _ => by ring

/-- **C152** The transform of any function, band limited or not, is its orthogonal projection: the squared distance from the function to any
function of the order is the squared distance to the one with the transformed coefficients plus the squared difference of the coefficients. -/
theorem C152_projection {N Q S : ℕ} {azi zen : Fin Q → ℝ} {wo : Option (Fin Q → ℝ)} {w : Fin Q → ℝ} (hg : TransformGrid N azi zen wo w)
    (f : Matrix (Fin Q) (Fin S) ℝ) (G : Matrix (Fin ((N + 1) ^ 2)) (Fin S) ℝ) (No : Option ℕ) (hN : No = none ∨ No = some N) :
    ∃ p g, inverseSht (sht (shMat N azi zen) wo f) azi zen No = .ok p ∧ inverseSht G azi zen No = .ok g ∧
      ∀ s, ∑ q, w q * (f q s - g q s) ^ 2 = ∑ q, w q * (f q s - p q s) ^ 2 + ∑ k, (sht (shMat N azi zen) wo f k s - G k s) ^ 2 := by
  refine ⟨_, _, inverse_eq _ azi zen No hN, inverse_eq G azi zen No hN, fun s => ?_⟩
  obtain ⟨Y, hY⟩ : ∃ Y, Y = shMat N azi zen := ⟨_, rfl⟩
  obtain ⟨F, hF⟩ : ∃ F, F = sht (shMat N azi zen) wo f := ⟨_, rfl⟩
  have hFe : F = Y.transpose * (Matrix.diagonal w * f) := by rw [hF, transform_sht hg, hY]
  have hgram : Y.transpose * (Matrix.diagonal w * Y) = 1 := by rw [hY]; exact transform_gram hg
  rw [← hF, ← hY]
  obtain ⟨D, hD⟩ : ∃ D, D = F - G := ⟨_, rfl⟩
  -- the error is orthogonal to everything of the order
  have horth : ((Y * D).transpose * (Matrix.diagonal w * (f - Y * F))) s s = 0 := by
    rw [Matrix.transpose_mul, Matrix.mul_assoc, Matrix.mul_sub, Matrix.mul_sub, ← hFe, ← Matrix.mul_assoc (Matrix.diagonal w), ← Matrix.mul_assoc Y.transpose,
      hgram, Matrix.one_mul, sub_self, Matrix.mul_zero]
    rfl
  have hen : ((Y * D).transpose * (Matrix.diagonal w * (Y * D))) s s = (D.transpose * D) s s := by
    rw [Matrix.transpose_mul, Matrix.mul_assoc, ← Matrix.mul_assoc (Matrix.diagonal w), ← Matrix.mul_assoc Y.transpose, hgram, Matrix.one_mul]
  rw [Matrix.mul_apply] at horth hen
  rw [Matrix.mul_apply] at hen
  simp only [Matrix.diagonal_mul, Matrix.transpose_apply, Matrix.sub_apply] at horth hen
  have hsplit : ∀ q, (Y * G) q s = (Y * F) q s - (Y * D) q s := by
    intro q
    have : Y * G = Y * F - Y * D := by rw [hD, Matrix.mul_sub, sub_sub_cancel]
    rw [this]; rfl
  have hk : ∑ k, (F k s - G k s) ^ 2 = ∑ q, (Y * D) q s * (w q * (Y * D) q s) := by
    rw [hen, hD]
    exact Finset.sum_congr rfl fun k _ => by rw [Matrix.sub_apply]; ring
  rw [hk, ← Finset.sum_add_distrib]
  have : ∑ q, w q * (f q s - (Y * G) q s) ^ 2
      = ∑ q, (w q * (f q s - (Y * F) q s) ^ 2 + (Y * D) q s * (w q * (Y * D) q s)) + 2 * ∑ q, (Y * D) q s * (w q * (f q s - (Y * F) q s)) := by
    rw [Finset.mul_sum, ← Finset.sum_add_distrib]
    exact Finset.sum_congr rfl fun q _ => by rw [hsplit]; ring
  rw [this, horth, mul_zero, add_zero]

/-- **C152** Hence no coefficients come closer than the transformed ones, and only these come as close. -/
theorem C152_best {N Q S : ℕ} {azi zen : Fin Q → ℝ} {wo : Option (Fin Q → ℝ)} {w : Fin Q → ℝ} (hg : TransformGrid N azi zen wo w)
    (f : Matrix (Fin Q) (Fin S) ℝ) (G : Matrix (Fin ((N + 1) ^ 2)) (Fin S) ℝ) (No : Option ℕ) (hN : No = none ∨ No = some N) :
    ∃ p g, inverseSht (sht (shMat N azi zen) wo f) azi zen No = .ok p ∧ inverseSht G azi zen No = .ok g ∧
      (∀ s, ∑ q, w q * (f q s - p q s) ^ 2 ≤ ∑ q, w q * (f q s - g q s) ^ 2) ∧
      ((∀ s, ∑ q, w q * (f q s - g q s) ^ 2 ≤ ∑ q, w q * (f q s - p q s) ^ 2) → G = sht (shMat N azi zen) wo f) := by
  obtain ⟨p, g, h1, h2, h⟩ := C152_projection hg f G No hN
  refine ⟨p, g, h1, h2, fun s => ?_, fun hle => ?_⟩
  · rw [h s]
    have : 0 ≤ ∑ k, (sht (shMat N azi zen) wo f k s - G k s) ^ 2 := Finset.sum_nonneg fun k _ => sq_nonneg _
    linarith
  · ext k s
    have h0 : ∑ k, (sht (shMat N azi zen) wo f k s - G k s) ^ 2 = 0 := by
      refine le_antisymm ?_ (Finset.sum_nonneg fun k _ => sq_nonneg _)
      have := hle s
      rw [h s] at this
      linarith
    have := (Finset.sum_eq_zero_iff_of_nonneg fun k _ => sq_nonneg (sht (shMat N azi zen) wo f k s - G k s)).1 h0 k (Finset.mem_univ _)
    have := pow_eq_zero_iff (two_ne_zero) |>.1 this
    linarith

/-- **C152** Bessel: the coefficients never carry more energy than the function; they carry all of it exactly if the function is of the order on
the grid. -/
theorem C152_bessel {N Q S : ℕ} {azi zen : Fin Q → ℝ} {wo : Option (Fin Q → ℝ)} {w : Fin Q → ℝ} (hg : TransformGrid N azi zen wo w)
    (f : Matrix (Fin Q) (Fin S) ℝ) (s : Fin S) :
    ∑ k, sht (shMat N azi zen) wo f k s ^ 2 ≤ ∑ q, w q * f q s ^ 2 ∧
    (∑ k, sht (shMat N azi zen) wo f k s ^ 2 = ∑ q, w q * f q s ^ 2 ↔
      ∃ c : Fin ((N + 1) ^ 2) → ℝ, ∀ q, f q s = ∑ k, c k * shVec N (azi q) (zen q) k) := by
  obtain ⟨p, g, h1, h2, h⟩ := C152_projection hg f 0 none (.inl rfl)
  rw [inverse_eq _ azi zen none (.inl rfl)] at h1 h2
  obtain rfl := Except.ok.inj h1
  obtain rfl := Except.ok.inj h2
  have hs := h s
  simp only [Matrix.mul_zero, Matrix.zero_apply, sub_zero] at hs
  have hnn : ∀ q ∈ Finset.univ, 0 ≤ w q * (f q s - (shMat N azi zen * sht (shMat N azi zen) wo f) q s) ^ 2 :=
    fun q _ => mul_nonneg (transform_pos hg q).le (sq_nonneg _)
  refine ⟨by rw [hs]; linarith [Finset.sum_nonneg hnn], fun he => ?_, ?_⟩
  · rw [hs] at he
    have he : ∑ q, w q * (f q s - (shMat N azi zen * sht (shMat N azi zen) wo f) q s) ^ 2 = 0 := by linarith
    refine ⟨fun k => sht (shMat N azi zen) wo f k s, fun q => ?_⟩
    have h0 := (Finset.sum_eq_zero_iff_of_nonneg hnn).1 he q (Finset.mem_univ _)
    have := (mul_eq_zero.1 h0).resolve_left (transform_pos hg q).ne'
    have := pow_eq_zero_iff (two_ne_zero) |>.1 this
    rw [sub_eq_zero.1 this, Matrix.mul_apply]
    exact Finset.sum_congr rfl fun k _ => mul_comm _ _
  · rintro ⟨c, hc⟩
    obtain ⟨C, hC⟩ : ∃ C : Matrix (Fin ((N + 1) ^ 2)) (Fin S) ℝ, ∀ k s, C k s = c k := ⟨Matrix.of fun k _ => c k, fun _ _ => rfl⟩
    have hf : ∀ q, f q s = (shMat N azi zen * C) q s := by
      intro q
      rw [hc q, Matrix.mul_apply]
      exact Finset.sum_congr rfl fun k _ => by rw [hC]; exact mul_comm _ _
    obtain ⟨f', g', e1, e2, hp⟩ := C152_parseval hg C C none (.inl rfl)
    rw [inverse_eq C azi zen none (.inl rfl)] at e1 e2
    obtain rfl := Except.ok.inj e1
    obtain rfl := Except.ok.inj e2
    have hsht : ∀ k, sht (shMat N azi zen) wo f k s = C k s := by
      intro k
      have hr : (sht (shMat N azi zen) wo f) k s = (sht (shMat N azi zen) wo (shMat N azi zen * C)) k s := by
        rw [transform_sht hg, transform_sht hg, Matrix.mul_apply, Matrix.mul_apply]
        refine Finset.sum_congr rfl fun q _ => ?_
        rw [Matrix.diagonal_mul, Matrix.diagonal_mul, hf q]
      rw [hr, transform_sht hg, ← Matrix.mul_assoc (Matrix.diagonal w), ← Matrix.mul_assoc, transform_gram hg, Matrix.one_mul]
    have e3 : ∑ k, sht (shMat N azi zen) wo f k s ^ 2 = ∑ k, C k s * C k s := Finset.sum_congr rfl fun k _ => by rw [hsht k, pow_two]
    have e4 : ∑ q, w q * f q s ^ 2 = ∑ q, w q * ((shMat N azi zen * C) q s * (shMat N azi zen * C) q s) :=
      Finset.sum_congr rfl fun q _ => by rw [hf q, pow_two]
    rw [e3, e4, hp s s]

/-- **C152** Without weights on a design, `sht` and `sht_lstsq` agree for every function, band limited or not. -/
theorem C152_lstsq {N Q S t : ℕ} (lstsq : (K : ℕ) → Matrix (Fin Q) (Fin K) ℝ → Matrix (Fin Q) (Fin S) ℝ → Matrix (Fin K) (Fin S) ℝ)
    (hspec : ∀ K A b, IsLstsq A b (lstsq K A b)) (f : Matrix (Fin Q) (Fin S) ℝ) (azi zen : Fin Q → ℝ) (hd : IsTDesign t azi zen) (ht : 2 * N ≤ t) :
    shtLstsq lstsq f N azi zen = sht (shMat N azi zen) none f := by
  have h := (C23_min_norm lstsq hspec f azi zen (N := N)).1
  have hg := TransformGrid.design (N := N) t hd ht
  obtain ⟨x, hx⟩ : ∃ x, x = shtLstsq lstsq f N azi zen := ⟨_, rfl⟩
  rw [← hx] at h ⊢
  rw [Matrix.mul_sub, ← Matrix.mul_assoc, design_gram hd ht, Matrix.smul_mul, Matrix.one_mul, sub_eq_zero] at h
  show x = ((4 * π / Q) • shMat N azi zen).transpose * f
  rw [Matrix.transpose_smul, Matrix.smul_mul, ← h, smul_smul]
  have hQ : (Q : ℝ) ≠ 0 := by have := hd.pos; positivity
  have hp := pi_ne_zero
  rw [show 4 * π / (Q : ℝ) * ((Q : ℝ) / (4 * π)) = 1 by field_simp, one_smul]

/-- **C152** Parseval for complex harmonics. -/
theorem C152_complex {N Q S S' : ℕ} {azi zen : Fin Q → ℝ} {wo : Option (Fin Q → ℝ)} {w : Fin Q → ℝ} (hg : TransformGrid N azi zen wo w)
    (F : Matrix (Fin ((N + 1) ^ 2)) (Fin S) ℂ) (G : Matrix (Fin ((N + 1) ^ 2)) (Fin S') ℂ) (No : Option ℕ) (hN : No = none ∨ No = some N) :
    ∃ f g, inverseShtC F azi zen No = .ok f ∧ inverseShtC G azi zen No = .ok g ∧
      ∀ s s', ∑ q, (w q : ℂ) * (starRingEnd ℂ (f q s) * g q s') = ∑ k, starRingEnd ℂ (F k s) * G k s' := by
  refine ⟨_, _, inverseShtC_eq F azi zen No hN, inverseShtC_eq G azi zen No hN, fun s s' => ?_⟩
  obtain ⟨Y, hY⟩ : ∃ Y, Y = shMatC N azi zen := ⟨_, rfl⟩
  have hgram : (Y.map (starRingEnd ℂ)).transpose * (Matrix.diagonal (fun q => (w q : ℂ)) * Y) = 1 := by rw [hY]; exact gramC azi zen w (transform_gram hg)
  have h : (((Y * F).map (starRingEnd ℂ)).transpose * (Matrix.diagonal (fun q => (w q : ℂ)) * (Y * G))) s s' = ((F.map (starRingEnd ℂ)).transpose * G) s s' := by
    rw [Matrix.map_mul, Matrix.transpose_mul, Matrix.mul_assoc, ← Matrix.mul_assoc (Matrix.diagonal _), ← Matrix.mul_assoc (Y.map (starRingEnd ℂ)).transpose, hgram, Matrix.one_mul]
  rw [Matrix.mul_apply, Matrix.mul_apply] at h
  simp only [Matrix.diagonal_mul, Matrix.transpose_apply, Matrix.map_apply] at h
  rw [← hY, ← h]
  exact Finset.sum_congr rfl fun q _ => by ring

/-- The eight points of `gauss(1)`, the sixteen of `equal_angle(1)` and the corners of a cube are such grids. -/
example : (∃ azi zen : Fin 8 → ℝ, TransformGrid 1 azi zen (some fun _ => π / 2) fun _ => π / 2) ∧
    (∃ azi zen w : Fin 16 → ℝ, TransformGrid 1 azi zen (some w) w) ∧ ∃ azi zen : Fin 8 → ℝ, TransformGrid 1 azi zen none fun _ => 4 * π / (8 : ℕ) := by
  obtain ⟨azi, zen, h⟩ := gauss_one_grid
  obtain ⟨a, z, hd⟩ := cube_design
  obtain ⟨h1, h2, h3, -⟩ := C27_equal_angle 1
  obtain ⟨a', ha⟩ := toFn (n := 16) _ h1
  obtain ⟨z', hz⟩ := toFn (n := 16) _ h2
  obtain ⟨w', hw⟩ := toFn (n := 16) _ h3
  exact ⟨⟨azi, zen, .gauss _ _ isGauss_two h⟩, ⟨a', z', w', .equalAngle _ (by rw [← ha, ← hz, ← hw])⟩, a, z, .design 3 hd (by norm_num)⟩

/-- No function on the corners of a cube gains energy at first order. -/
example : ∃ azi zen : Fin 8 → ℝ, ∀ f : Matrix (Fin 8) (Fin 1) ℝ, ∑ k, sht (shMat 1 azi zen) none f k 0 ^ 2 ≤ ∑ q, 4 * π / (8 : ℕ) * f q 0 ^ 2 := by
  obtain ⟨a, z, hd⟩ := cube_design
  exact ⟨a, z, fun f => (C152_bessel (.design 3 hd (by norm_num)) f 0).1⟩

end Verif.Props
