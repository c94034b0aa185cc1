import Verif.Model.SphComplex
import Verif.Props.Grids
import Verif.Props.ShRotation
import Verif.Props.SphDesigns

/-!
C93: complex spherical harmonics.
-/

namespace Verif.Props
open Real Verif.Sph Verif.Grids Verif.Solid Verif.Utils

/-! ### Complex and real harmonics -/

theorem sphHarm_neg (m : ℤ) (n : ℕ) (a z : ℝ) : sphHarm (-m) n a z = (-1) ^ m.natAbs * (starRingEnd ℂ) (sphHarm m n a z) := by
  unfold sphHarm
  rcases lt_trichotomy m 0 with h | rfl | h
  · rw [if_pos (by omega), if_neg (by omega), Int.natAbs_neg, map_mul, map_pow, map_neg, map_one, Complex.conj_conj, ← mul_assoc, ← mul_pow]
    norm_num
  · have : (starRingEnd ℂ) (sphHarmNonneg 0 n a z) = sphHarmNonneg 0 n a z := by
      unfold sphHarmNonneg
      simp
    simp [this]
  · rw [if_neg (by omega), if_pos h.le, Int.natAbs_neg]

theorem sphHarm_zero_real (n : ℕ) (a z : ℝ) : sphHarm 0 n a z = (realSH n 0 a z : ℂ) := by
  have h : (starRingEnd ℂ) (sphHarm 0 n a z) = sphHarm 0 n a z := by
    have := sphHarm_neg 0 n a z
    simpa using this.symm
  rw [realSH, if_pos rfl]
  exact (Complex.conj_eq_iff_re.1 h).symm

/-- C93: a harmonic of positive degree in terms of the real ones. -/
theorem sphHarm_pos (m : ℤ) (hm : 0 < m) (n : ℕ) (a z : ℝ) :
    sphHarm m n a z = (((-1) ^ m.natAbs / √2 : ℝ) : ℂ) * ((realSH n m a z : ℂ) + Complex.I * realSH n (-m) a z) := by
  have h2 : √2 ≠ 0 := by positivity
  have hs : ((-1 : ℝ) ^ m.natAbs) * (-1) ^ m.natAbs = 1 := by rw [← mul_pow]; norm_num
  have e1 : realSH n m a z = √2 * (-1) ^ m.natAbs * (sphHarm m n a z).re := by
    rw [realSH, if_neg hm.ne', if_neg (by omega), abs_of_pos hm]
  have e2 : realSH n (-m) a z = √2 * (-1) ^ m.natAbs * (sphHarm m n a z).im := by
    rw [realSH, if_neg (by omega), if_pos (by omega), abs_neg, abs_of_pos hm, Int.natAbs_neg]
  have hr : ∀ x y : ℝ, ((x : ℂ) + Complex.I * y).re = x := by intro x y; simp
  have hi : ∀ x y : ℝ, ((x : ℂ) + Complex.I * y).im = y := by intro x y; simp
  apply Complex.ext
  · rw [Complex.re_ofReal_mul, hr, e1]
    field_simp
    linear_combination -(sphHarm m n a z).re * hs
  · rw [Complex.im_ofReal_mul, hi, e2]
    field_simp
    linear_combination -(sphHarm m n a z).im * hs

theorem sphHarm_negative (m : ℤ) (hm : 0 < m) (n : ℕ) (a z : ℝ) :
    sphHarm (-m) n a z = ((1 / √2 : ℝ) : ℂ) * ((realSH n m a z : ℂ) - Complex.I * realSH n (-m) a z) := by
  have hs : ((-1 : ℂ) ^ m.natAbs) * (-1) ^ m.natAbs = 1 := by rw [← mul_pow]; norm_num
  rw [sphHarm_neg, sphHarm_pos m hm]
  simp only [map_mul, map_add, Complex.conj_ofReal, Complex.conj_I]
  push_cast
  linear_combination (1 / (√2 : ℂ)) * ((realSH n m a z : ℂ) - Complex.I * realSH n (-m) a z) * hs

/-- Coefficients of the complex harmonic of degree `m` with respect to the real ones of degrees `|m|` and `-|m|`. -/
noncomputable def cosCoef (m : ℤ) : ℂ := if m = 0 then 1 else if 0 < m then (((-1) ^ m.natAbs / √2 : ℝ) : ℂ) else ((1 / √2 : ℝ) : ℂ)

noncomputable def sinCoef (m : ℤ) : ℂ :=
  if m = 0 then 0 else if 0 < m then Complex.I * (((-1) ^ m.natAbs / √2 : ℝ) : ℂ) else -(Complex.I * ((1 / √2 : ℝ) : ℂ))

theorem sphHarm_expand (m : ℤ) (n : ℕ) (a z : ℝ) : sphHarm m n a z = cosCoef m * realSH n |m| a z + sinCoef m * realSH n (-|m|) a z := by
  unfold cosCoef sinCoef
  rcases lt_trichotomy m 0 with h | rfl | h
  · rw [if_neg h.ne, if_neg (by omega), if_neg h.ne, if_neg (by omega), abs_of_neg h]
    have := sphHarm_negative (-m) (by omega) n a z
    rw [neg_neg] at this
    rw [this, neg_neg]; ring
  · simp [sphHarm_zero_real]
  · rw [if_neg h.ne', if_pos h, if_neg h.ne', if_pos h, abs_of_pos h, sphHarm_pos m h]
    ring

theorem coef_orth (m m' : ℤ) (h : |m| = |m'|) :
    (starRingEnd ℂ) (cosCoef m) * cosCoef m' + (starRingEnd ℂ) (sinCoef m) * sinCoef m' = if m = m' then 1 else 0 := by
  have h2 : (√2 : ℂ) * √2 = 2 := by
    rw [← Complex.ofReal_mul, Real.mul_self_sqrt (by norm_num)]; norm_num
  have h2' : (√2 : ℂ) ≠ 0 := by
    intro h0; rw [h0] at h2; norm_num at h2
  have hinv : (1 / (√2 : ℂ)) * (1 / √2) = 1 / 2 := by
    rw [div_mul_div_comm, h2, one_mul]
  have hs : ∀ k : ℕ, ((-1 : ℂ) ^ k) * (-1) ^ k = 1 := by intro k; rw [← mul_pow]; norm_num
  have hI := Complex.I_mul_I
  rcases lt_trichotomy m 0 with hm | rfl | hm <;> rcases lt_trichotomy m' 0 with hm' | rfl | hm'
  · have : m = m' := by rw [abs_of_neg hm, abs_of_neg hm'] at h; omega
    subst this
    simp only [cosCoef, sinCoef, if_neg hm.ne, if_neg (show ¬ 0 < m by omega), if_true, map_mul, map_neg, Complex.conj_ofReal, Complex.conj_I]
    push_cast
    linear_combination (1 - Complex.I * Complex.I) * hinv - (1 / 2) * hI
  · simp at h; omega
  · have : m = -m' := by rw [abs_of_neg hm, abs_of_pos hm'] at h; omega
    subst this
    rw [if_neg (by omega)]
    simp only [cosCoef, sinCoef, if_neg hm.ne, if_neg (show ¬ 0 < -m' by omega), if_neg hm'.ne', if_pos hm', map_mul, map_neg, Complex.conj_ofReal, Complex.conj_I]
    push_cast
    linear_combination (-1) ^ m'.natAbs * (1 / (√2 : ℂ)) * (1 / √2) * hI
  · rw [abs_zero] at h; have := abs_eq_zero.1 h.symm; omega
  · simp [cosCoef, sinCoef]
  · rw [abs_zero] at h; have := abs_eq_zero.1 h.symm; omega
  · have : m' = -m := by rw [abs_of_pos hm, abs_of_neg hm'] at h; omega
    subst this
    rw [if_neg (by omega)]
    simp only [cosCoef, sinCoef, if_neg hm.ne', if_pos hm, if_neg hm'.ne, if_neg (show ¬ 0 < -m by omega), map_mul, Complex.conj_ofReal, Complex.conj_I]
    push_cast
    linear_combination (-1) ^ m.natAbs * (1 / (√2 : ℂ)) * (1 / √2) * hI
  · simp at h; omega
  · have : m = m' := by rw [abs_of_pos hm, abs_of_pos hm'] at h; omega
    subst this
    simp only [cosCoef, sinCoef, if_neg hm.ne', if_pos hm, if_true, map_mul, Complex.conj_ofReal, Complex.conj_I]
    push_cast
    linear_combination (-1) ^ m.natAbs * (-1) ^ m.natAbs * (1 - Complex.I * Complex.I) * hinv - (1 / 2) * (-1) ^ m.natAbs * (-1) ^ m.natAbs * hI + hs m.natAbs

/-! ### Orthonormality -/

/-- Sampled orthogonality carries over from the real to the complex harmonics. -/
theorem complex_orth {Q : ℕ} (azi zen w : Fin Q → ℝ) (N : ℕ) (c : ℝ)
    (hR : ∀ (n n' : ℕ) (m m' : ℤ), n ≤ N → n' ≤ N → |m| ≤ n → |m'| ≤ n' →
      ∑ q, w q * (realSH n m (azi q) (zen q) * realSH n' m' (azi q) (zen q)) = if n = n' ∧ m = m' then c else 0)
    (n n' : ℕ) (m m' : ℤ) (hn : n ≤ N) (hn' : n' ≤ N) (hm : |m| ≤ n) (hm' : |m'| ≤ n') :
    ∑ q, (w q : ℂ) * ((starRingEnd ℂ) (sphHarm m n (azi q) (zen q)) * sphHarm m' n' (azi q) (zen q))
      = if n = n' ∧ m = m' then (c : ℂ) else 0 := by
  have hC : ∀ k k' : ℤ, |k| = |m| → |k'| = |m'| →
      ∑ q, (w q : ℂ) * ((realSH n k (azi q) (zen q) : ℂ) * realSH n' k' (azi q) (zen q)) = if n = n' ∧ k = k' then (c : ℂ) else 0 := by
    intro k k' hk hk'
    have := congrArg (fun x : ℝ => (x : ℂ)) (hR n n' k k' hn hn' (hk ▸ hm) (hk' ▸ hm'))
    push_cast at this
    rw [this]
    split_ifs <;> simp
  have e : ∑ q, (w q : ℂ) * ((starRingEnd ℂ) (sphHarm m n (azi q) (zen q)) * sphHarm m' n' (azi q) (zen q))
      = (starRingEnd ℂ) (cosCoef m) * cosCoef m' * ∑ q, (w q : ℂ) * ((realSH n |m| (azi q) (zen q) : ℂ) * realSH n' |m'| (azi q) (zen q))
      + (starRingEnd ℂ) (cosCoef m) * sinCoef m' * ∑ q, (w q : ℂ) * ((realSH n |m| (azi q) (zen q) : ℂ) * realSH n' (-|m'|) (azi q) (zen q))
      + (starRingEnd ℂ) (sinCoef m) * cosCoef m' * ∑ q, (w q : ℂ) * ((realSH n (-|m|) (azi q) (zen q) : ℂ) * realSH n' |m'| (azi q) (zen q))
      + (starRingEnd ℂ) (sinCoef m) * sinCoef m' * ∑ q, (w q : ℂ) * ((realSH n (-|m|) (azi q) (zen q) : ℂ) * realSH n' (-|m'|) (azi q) (zen q)) := by
    simp only [Finset.mul_sum]
    rw [← Finset.sum_add_distrib, ← Finset.sum_add_distrib, ← Finset.sum_add_distrib]
    refine Finset.sum_congr rfl fun q _ => ?_
    rw [sphHarm_expand m, sphHarm_expand m']
    simp only [map_add, map_mul, Complex.conj_ofReal]
    ring
  rw [e, hC _ _ (abs_abs m) (abs_abs m'), hC _ _ (abs_abs m) (by rw [abs_neg, abs_abs]), hC _ _ (by rw [abs_neg, abs_abs]) (abs_abs m'),
    hC _ _ (by rw [abs_neg, abs_abs]) (by rw [abs_neg, abs_abs])]
  by_cases h : n = n'
  swap
  · simp [h]
  by_cases ha : |m| = |m'|
  · have ho := coef_orth m m' ha
    by_cases h0 : m = 0
    · have h0' : m' = 0 := by rw [h0, abs_zero] at ha; exact abs_eq_zero.1 ha.symm
      simp [h0, h0', h, cosCoef, sinCoef]
    · have hp : 0 < |m| := abs_pos.2 h0
      rw [if_pos ⟨h, ha⟩, if_neg (by rintro ⟨-, h⟩; omega), if_neg (by rintro ⟨-, h⟩; omega), if_pos ⟨h, by rw [ha]⟩]
      by_cases hmm : m = m'
      · rw [if_pos hmm] at ho
        rw [if_pos ⟨h, hmm⟩]
        linear_combination (c : ℂ) * ho
      · rw [if_neg hmm] at ho
        rw [if_neg (fun h => hmm h.2)]
        linear_combination (c : ℂ) * ho
  · have hp := abs_nonneg m
    have hp' := abs_nonneg m'
    rw [if_neg (fun h => ha h.2), if_neg (by rintro ⟨-, h⟩; omega), if_neg (by rintro ⟨-, h⟩; omega), if_neg (by rintro ⟨-, h⟩; omega),
      if_neg (by rintro ⟨-, h⟩; exact ha (by rw [h]))]
    ring

theorem acn_index {N n : ℕ} {m : ℤ} (hn : n ≤ N) (hm : |m| ≤ n) :
    ∃ k : Fin ((N + 1) ^ 2), acnOrder k = n ∧ acnDegree k = m := by
  obtain ⟨k, hk, _, e⟩ := acn_toNat hm
  have h : n ^ 2 + k < (N + 1) ^ 2 := by
    have := Nat.pow_le_pow_left (show n + 1 ≤ N + 1 by omega) 2
    nlinarith
  exact ⟨⟨n ^ 2 + k, h⟩, acnOrder_eq hk, by rw [← e]; exact acnDegree_eq hk⟩

theorem gramC {N Q : ℕ} (azi zen w : Fin Q → ℝ) (hG : (shMat N azi zen).transpose * (Matrix.diagonal w * shMat N azi zen) = 1) :
    ((shMatC N azi zen).map (starRingEnd ℂ)).transpose * (Matrix.diagonal (fun q => (w q : ℂ)) * shMatC N azi zen) = 1 := by
  have hR : ∀ (n n' : ℕ) (m m' : ℤ), n ≤ N → n' ≤ N → |m| ≤ n → |m'| ≤ n' →
      ∑ q, w q * (realSH n m (azi q) (zen q) * realSH n' m' (azi q) (zen q)) = if n = n' ∧ m = m' then (1 : ℝ) else 0 := by
    intro n n' m m' hn hn' hm hm'
    obtain ⟨i, hi, hi'⟩ := acn_index hn hm
    obtain ⟨j, hj, hj'⟩ := acn_index hn' hm'
    have h := congrFun (congrFun hG i) j
    rw [Matrix.mul_apply] at h
    simp only [Matrix.transpose_apply, Matrix.diagonal_mul] at h
    have e : ∀ q, shMat N azi zen q i * (w q * shMat N azi zen q j) = w q * (realSH n m (azi q) (zen q) * realSH n' m' (azi q) (zen q)) := by
      intro q
      show realSH (acnOrder i) (acnDegree i) (azi q) (zen q) * (w q * realSH (acnOrder j) (acnDegree j) (azi q) (zen q)) = _
      rw [hi, hi', hj, hj']; ring
    rw [Finset.sum_congr rfl fun q _ => (e q).symm, h, Matrix.one_apply]
    by_cases hij : i = j
    · subst hij
      rw [if_pos rfl, if_pos ⟨by omega, by omega⟩]
    · rw [if_neg hij, if_neg]
      rintro ⟨h1, h2⟩
      exact hij (Fin.ext (acn_ext (by omega) (by omega)))
  ext i j
  rw [Matrix.mul_apply]
  simp only [Matrix.transpose_apply, Matrix.diagonal_mul, Matrix.map_apply]
  have h := complex_orth azi zen w N 1 hR (acnOrder i) (acnOrder j) (acnDegree i) (acnDegree j) (acnOrder_le i.2) (acnOrder_le j.2)
    (acnDegree_abs i) (acnDegree_abs j)
  have e : ∀ q, (starRingEnd ℂ) (shMatC N azi zen q i) * ((w q : ℂ) * shMatC N azi zen q j)
      = (w q : ℂ) * ((starRingEnd ℂ) (sphHarm (acnDegree i) (acnOrder i) (azi q) (zen q)) * sphHarm (acnDegree j) (acnOrder j) (azi q) (zen q)) := by
    intro q
    show (starRingEnd ℂ) (sphHarm (acnDegree i) (acnOrder i) (azi q) (zen q)) * ((w q : ℂ) * sphHarm (acnDegree j) (acnOrder j) (azi q) (zen q)) = _
    ring
  rw [Finset.sum_congr rfl fun q _ => e q, h, Matrix.one_apply]
  by_cases hij : i = j
  · subst hij; simp
  · rw [if_neg hij, if_neg]
    rintro ⟨h1, h2⟩
    exact hij (Fin.ext (acn_ext h1 h2))

/-! ### Round trips -/

theorem inverseShtC_eq {N S Q : ℕ} (F : Matrix (Fin ((N + 1) ^ 2)) (Fin S) ℂ) (azi zen : Fin Q → ℝ) (Nopt : Option ℕ)
    (hN : Nopt = none ∨ Nopt = some N) : inverseShtC F azi zen Nopt = .ok (shMatC N azi zen * F) := by
  have hsub : F.submatrix (Fin.castLE (le_refl ((N + 1) ^ 2))) id = F := by ext i j; rfl
  have hK : (N + 1) ^ 2 ≠ 0 := (sq_pos' N).ne'
  unfold inverseShtC
  rw [if_neg (fun h => hK h.2)]
  rcases hN with rfl | rfl
  · have hM : (shOrder ((N + 1) ^ 2)).toNat = N := by rw [C11_order_square N]; simp
    simp only
    generalize hm : (shOrder ((N + 1) ^ 2)).toNat = M at hM
    have hle : (M + 1) ^ 2 ≤ (N + 1) ^ 2 := by rw [hM]
    rw [dif_pos hle]
    subst hM
    rw [hsub]
  · exact (dif_pos (le_refl ((N + 1) ^ 2))).trans (by rw [hsub])

theorem shtC_roundtrip {N S Q : ℕ} (F : Matrix (Fin ((N + 1) ^ 2)) (Fin S) ℂ) (azi zen w : Fin Q → ℝ)
    (hG : (shMat N azi zen).transpose * (Matrix.diagonal w * shMat N azi zen) = 1) (Nopt : Option ℕ)
    (hN : Nopt = none ∨ Nopt = some N) :
    (inverseShtC F azi zen Nopt).map (shtC (shMatC N azi zen) (some w)) = .ok F := by
  rw [inverseShtC_eq F azi zen Nopt hN]
  show Except.ok _ = Except.ok _
  congr 1
  show ((shMatC N azi zen).map (starRingEnd ℂ)).transpose * (Matrix.diagonal (fun q => (w q : ℂ)) * (shMatC N azi zen * F)) = F
  rw [← Matrix.mul_assoc (Matrix.diagonal _), ← Matrix.mul_assoc, gramC azi zen w hG, Matrix.one_mul]

/-- C93: with complex harmonics the weighted transform on the equal angle grid undoes the inverse transform. -/
theorem C93_equal_angle (N S : ℕ) (F : Matrix (Fin ((N + 1) ^ 2)) (Fin S) ℂ) {Q : ℕ} (azi zen w : Fin Q → ℝ)
    (hgrid : equalAngle N = (List.ofFn azi, List.ofFn zen, List.ofFn w)) (Nopt : Option ℕ)
    (hN : Nopt = none ∨ Nopt = some N) :
    (inverseShtC F azi zen Nopt).map (shtC (shMatC N azi zen) (some w)) = .ok F := by
  unfold equalAngle at hgrid
  simp only [Prod.mk.injEq] at hgrid
  obtain ⟨h1, h2, h3⟩ := hgrid
  rw [map_npRepeat] at h3
  exact shtC_roundtrip F azi zen w (grid_gram azi zen w (equalAngleZen N) _ N (by simp)
    (by rw [equalAngleZen_length]; exact h1.symm) h2.symm h3.symm (equalAngle_hex N)) Nopt hN

/-- C93 on the Gauss-Legendre grid. -/
theorem C93_gauss (leggauss : ℕ → List ℝ × List ℝ) (N S : ℕ) (hl : IsGaussLegendre (N + 1) (leggauss (N + 1)))
    (F : Matrix (Fin ((N + 1) ^ 2)) (Fin S) ℂ) {Q : ℕ} (azi zen w : Fin Q → ℝ)
    (hgrid : gauss leggauss N = (List.ofFn azi, List.ofFn zen, List.ofFn w)) (Nopt : Option ℕ)
    (hN : Nopt = none ∨ Nopt = some N) :
    (inverseShtC F azi zen Nopt).map (shtC (shMatC N azi zen) (some w)) = .ok F := by
  unfold gauss at hgrid
  simp only [Prod.mk.injEq] at hgrid
  obtain ⟨h1, h2, h3⟩ := hgrid
  rw [map_npRepeat] at h3
  exact shtC_roundtrip F azi zen w (grid_gram azi zen w _ _ N (by rw [List.length_map, List.length_map, hl.nodes, hl.weights])
    (by rw [List.length_map, hl.nodes]; exact h1.symm) h2.symm h3.symm (gauss_hex N _ hl)) Nopt hN

theorem design_wgram {Q N t : ℕ} {azi zen : Fin Q → ℝ} (hd : IsTDesign t azi zen) (h : 2 * N ≤ t) :
    (shMat N azi zen).transpose * (Matrix.diagonal (fun _ : Fin Q => 4 * π / Q) * shMat N azi zen) = 1 := by
  have hQ : (Q : ℝ) ≠ 0 := by have := hd.pos; positivity
  have hp := Real.pi_pos.ne'
  ext i j
  rw [Matrix.mul_apply]
  simp only [Matrix.transpose_apply, Matrix.diagonal_mul]
  have ho := design_orth hd (acnOrder i) (acnOrder j) (acnDegree i) (acnDegree j) (acnDegree_abs i)
    (by have := acnOrder_le i.2; have := acnOrder_le j.2; omega)
  have e : ∀ q, shMat N azi zen q i * (4 * π / Q * shMat N azi zen q j)
      = 4 * π / Q * (realSH (acnOrder i) (acnDegree i) (azi q) (zen q) * realSH (acnOrder j) (acnDegree j) (azi q) (zen q)) := by
    intro q
    show realSH (acnOrder i) (acnDegree i) (azi q) (zen q) * (4 * π / Q * realSH (acnOrder j) (acnDegree j) (azi q) (zen q)) = _
    ring
  rw [Finset.sum_congr rfl fun q _ => e q, ← Finset.mul_sum, ho, Matrix.one_apply]
  by_cases hij : i = j
  · subst hij
    rw [if_pos ⟨rfl, rfl⟩, if_pos rfl]; field_simp
  · rw [if_neg hij, if_neg, mul_zero]
    rintro ⟨h1, h2⟩
    exact hij (Fin.ext (acn_ext h1 h2))

theorem shtC_apply {Q K S : ℕ} (Y : Matrix (Fin Q) (Fin K) ℂ) (w : Fin Q → ℝ) (f : Matrix (Fin Q) (Fin S) ℂ) (i : Fin K) (s : Fin S) :
    shtC Y (some w) f i s = ∑ q, (starRingEnd ℂ) (Y q i) * ((w q : ℂ) * f q s) := by
  simp only [shtC]
  rw [Matrix.mul_apply]
  simp only [Matrix.transpose_apply, Matrix.map_apply, Matrix.diagonal_mul]

theorem sht_apply {Q K S : ℕ} (Y : Matrix (Fin Q) (Fin K) ℝ) (w : Fin Q → ℝ) (f : Matrix (Fin Q) (Fin S) ℝ) (i : Fin K) (s : Fin S) :
    sht Y (some w) f i s = ∑ q, Y q i * (w q * f q s) := by
  simp only [sht]
  rw [Matrix.mul_apply]
  simp only [Matrix.transpose_apply, Matrix.diagonal_mul]

theorem shtC_none {Q K S : ℕ} (Y : Matrix (Fin Q) (Fin K) ℂ) (f : Matrix (Fin Q) (Fin S) ℂ) :
    shtC Y none f = shtC Y (some fun _ => 4 * π / Q) f := by
  ext i j
  rw [shtC_apply]
  simp only [shtC, Matrix.mul_apply, Matrix.transpose_apply, Matrix.smul_apply, Matrix.map_apply, smul_eq_mul]
  refine Finset.sum_congr rfl fun q _ => ?_
  ring

/-- C93: without weights, on a spherical design of strength `2N`. -/
theorem C93_design {Q N S t : ℕ} (F : Matrix (Fin ((N + 1) ^ 2)) (Fin S) ℂ) (azi zen : Fin Q → ℝ) (hd : IsTDesign t azi zen) (ht : 2 * N ≤ t)
    (Nopt : Option ℕ) (hN : Nopt = none ∨ Nopt = some N) :
    (inverseShtC F azi zen Nopt).map (shtC (shMatC N azi zen) none) = .ok F := by
  have := shtC_roundtrip F azi zen _ (design_wgram hd ht) Nopt hN
  rw [← this]
  congr 1
  funext f
  exact shtC_none _ f

example (F : Matrix (Fin ((1 + 1) ^ 2)) (Fin 2) ℂ) : ∃ azi zen : Fin 8 → ℝ,
    (inverseShtC F azi zen none).map (shtC (shMatC 1 azi zen) none) = .ok F := by
  obtain ⟨azi, zen, hd⟩ := cube_design
  exact ⟨azi, zen, C93_design F azi zen hd (by norm_num) none (.inl rfl)⟩

example (N : ℕ) (F : Matrix (Fin ((N + 1) ^ 2)) (Fin 2) ℂ) : ∃ azi zen w : Fin ((2 * N + 2) ^ 2) → ℝ,
    (inverseShtC F azi zen none).map (shtC (shMatC N azi zen) (some w)) = .ok F := by
  obtain ⟨h1, h2, h3, -⟩ := C27_equal_angle N
  have key : ∀ l : List ℝ, l.length = (2 * N + 2) ^ 2 → List.ofFn (fun i : Fin ((2 * N + 2) ^ 2) => l.getD i 0) = l := by
    intro l hl
    apply List.ext_getElem
    · simp [hl]
    · intro i a b; simp [List.getD_eq_getElem?_getD, b]
  refine ⟨fun i => (equalAngle N).1.getD i 0, fun i => (equalAngle N).2.1.getD i 0, fun i => (equalAngle N).2.2.getD i 0,
    C93_equal_angle N 2 F _ _ _ ?_ none (.inl rfl)⟩
  rw [key _ h1, key _ h2, key _ h3]

/-! ### Symmetry and agreement with the real transform -/

theorem kernel_eq (n : ℕ) (a1 z1 a2 z2 : ℝ) :
    ∑ m ∈ I n, sphHarm m n a1 z1 * (starRingEnd ℂ) (sphHarm m n a2 z2)
      = ∑ m ∈ I n, (realSH n m a1 z1 : ℂ) * realSH n m a2 z2 := by
  have hneg : ∀ f : ℤ → ℂ, ∑ m ∈ I n, f (-m) = ∑ m ∈ I n, f m := by
    intro f
    refine Finset.sum_bij' (fun m _ => -m) (fun m _ => -m) ?_ ?_ ?_ ?_ ?_
    · intro m hm; simp only [I, Finset.mem_Icc] at *; omega
    · intro m hm; simp only [I, Finset.mem_Icc] at *; omega
    · intro m _; simp
    · intro m _; simp
    · intro m _; rfl
  have hpair : ∀ f : ℤ → ℂ, 2 * ∑ m ∈ I n, f m = ∑ m ∈ I n, (f m + f (-m)) := by
    intro f
    rw [Finset.sum_add_distrib, hneg]; ring
  have h2 : (√2 : ℂ) * √2 = 2 := by
    rw [← Complex.ofReal_mul, Real.mul_self_sqrt (by norm_num)]; norm_num
  have hinv : (1 / (√2 : ℂ)) * (1 / √2) = 1 / 2 := by
    rw [div_mul_div_comm, h2, one_mul]
  have hs : ∀ k : ℕ, ((-1 : ℂ) ^ k) * (-1) ^ k = 1 := by intro k; rw [← mul_pow]; norm_num
  have hI := Complex.I_mul_I
  have hpos : ∀ m : ℤ, 0 < m → sphHarm m n a1 z1 * (starRingEnd ℂ) (sphHarm m n a2 z2) + sphHarm (-m) n a1 z1 * (starRingEnd ℂ) (sphHarm (-m) n a2 z2)
      = (realSH n m a1 z1 : ℂ) * realSH n m a2 z2 + (realSH n (-m) a1 z1 : ℂ) * realSH n (-m) a2 z2 := by
    intro m hm
    have e : ∀ x y : ℂ, (starRingEnd ℂ) ((-1) ^ m.natAbs * x) = (-1) ^ m.natAbs * (starRingEnd ℂ) x := by
      intro x _; simp
    rw [sphHarm_neg, sphHarm_neg, e _ 0, Complex.conj_conj, sphHarm_pos m hm, sphHarm_pos m hm]
    simp only [map_mul, map_add, Complex.conj_ofReal, Complex.conj_I]
    push_cast
    generalize (realSH n m a1 z1 : ℂ) = p
    generalize (realSH n (-m) a1 z1 : ℂ) = q
    generalize (realSH n m a2 z2 : ℂ) = r
    generalize (realSH n (-m) a2 z2 : ℂ) = s
    generalize hσ : (-1 : ℂ) ^ m.natAbs = σ
    have hs : σ * σ = 1 := hσ ▸ hs _
    generalize hδ : (√2 : ℂ) = δ
    rw [hδ] at hinv
    have e2 : σ / δ * (p + Complex.I * q) * (σ / δ * (r + -Complex.I * s)) + σ * (σ / δ * (p + -Complex.I * q)) * (σ * (σ / δ * (r + Complex.I * s)))
        = σ * σ * (1 / δ * (1 / δ)) * ((p + Complex.I * q) * (r + -Complex.I * s) + σ * σ * ((p + -Complex.I * q) * (r + Complex.I * s))) := by ring
    rw [e2, hs, hinv]
    linear_combination -(q * s) * hI
  have := (hpair fun m => sphHarm m n a1 z1 * (starRingEnd ℂ) (sphHarm m n a2 z2)).trans
    ((Finset.sum_congr rfl fun m _ => ?_).trans (hpair fun m => (realSH n m a1 z1 : ℂ) * realSH n m a2 z2).symm)
  · exact mul_left_cancel₀ two_ne_zero this
  · rcases lt_trichotomy m 0 with h | rfl | h
    · have := hpos (-m) (by omega)
      rw [neg_neg] at this
      rw [add_comm, this, add_comm]
    · simp [sphHarm_zero_real]
    · exact hpos m h

/-- C93: the addition theorem for the complex harmonics. -/
theorem C93_addition (n : ℕ) (a1 z1 a2 z2 : ℝ) (h1 : z1 ∈ Set.Icc 0 π) (h2 : z2 ∈ Set.Icc 0 π) :
    ∑ m ∈ Finset.Icc (-(n : ℤ)) n, sphHarm m n a1 z1 * (starRingEnd ℂ) (sphHarm m n a2 z2)
      = (((2 * n + 1) / (4 * π) * evalLegendre n (cos (angleBetween (dirVec a1 z1) (dirVec a2 z2))) : ℝ) : ℂ) := by
  rw [← C18_addition n a1 z1 a2 z2 h1 h2]
  have := kernel_eq n a1 z1 a2 z2
  unfold I at this
  rw [this]; push_cast; rfl

example (n : ℕ) (a z : ℝ) (h : z ∈ Set.Icc 0 π) : ∑ m ∈ Finset.Icc (-(n : ℤ)) n, sphHarm m n a z * (starRingEnd ℂ) (sphHarm m n 1 1)
    = (((2 * n + 1) / (4 * π) * evalLegendre n (cos (angleBetween (dirVec a z) (dirVec 1 1))) : ℝ) : ℂ) :=
  C93_addition n a z 1 1 h ⟨by norm_num, by have := Real.pi_gt_three; linarith⟩

/-- C93: coefficients of a real function satisfy `F_{n,-m} = (-1)^m conj F_{n,m}`, for any weights. -/
theorem C93_symmetry {N Q S : ℕ} (azi zen : Fin Q → ℝ) (w : Option (Fin Q → ℝ)) (f : Matrix (Fin Q) (Fin S) ℝ) (i j : Fin ((N + 1) ^ 2))
    (ho : acnOrder i = acnOrder j) (hd : acnDegree i = -acnDegree j) (s : Fin S) :
    shtC (shMatC N azi zen) w (f.map Complex.ofReal) i s
      = (-1) ^ (acnDegree j).natAbs * (starRingEnd ℂ) (shtC (shMatC N azi zen) w (f.map Complex.ofReal) j s) := by
  have key : ∀ w : Fin Q → ℝ, shtC (shMatC N azi zen) (some w) (f.map Complex.ofReal) i s
      = (-1) ^ (acnDegree j).natAbs * (starRingEnd ℂ) (shtC (shMatC N azi zen) (some w) (f.map Complex.ofReal) j s) := by
    intro w
    simp only [shtC_apply, Matrix.map_apply, map_sum, Finset.mul_sum]
    refine Finset.sum_congr rfl fun q _ => ?_
    simp only [map_mul, Complex.conj_conj, Complex.conj_ofReal]
    show (starRingEnd ℂ) (sphHarm (acnDegree i) (acnOrder i) (azi q) (zen q)) * _ = _ * (sphHarm (acnDegree j) (acnOrder j) (azi q) (zen q) * _)
    rw [ho, hd, sphHarm_neg]
    simp
    ring
  rcases w with _ | w
  · rw [shtC_none]; exact key _
  · exact key w

example (azi zen : Fin 5 → ℝ) (f : Matrix (Fin 5) (Fin 1) ℝ) :
    shtC (shMatC 1 azi zen) none (f.map Complex.ofReal) 1 0 = -(starRingEnd ℂ) (shtC (shMatC 1 azi zen) none (f.map Complex.ofReal) 3 0) := by
  have := C93_symmetry (N := 1) azi zen none f 1 3 (by norm_num [acnOrder]) (by norm_num [acnOrder, acnDegree]) 0
  rw [this]; norm_num [acnOrder, acnDegree]

theorem sht_none {Q K S : ℕ} (Y : Matrix (Fin Q) (Fin K) ℝ) (f : Matrix (Fin Q) (Fin S) ℝ) :
    sht Y none f = sht Y (some fun _ => 4 * π / Q) f := by
  ext i j
  rw [sht_apply]
  simp only [sht, Matrix.mul_apply, Matrix.transpose_apply, Matrix.smul_apply, smul_eq_mul]
  refine Finset.sum_congr rfl fun q _ => ?_
  ring

/-- C93: transforming a real function with complex or with real harmonics and rendering the coefficients at any directions gives
the same values, for any sampling and any weights. -/
theorem C93_same_function {N Q Q' S : ℕ} (azi zen : Fin Q → ℝ) (w : Option (Fin Q → ℝ)) (f : Matrix (Fin Q) (Fin S) ℝ) (azi' zen' : Fin Q' → ℝ)
    (Nopt : Option ℕ) (hN : Nopt = none ∨ Nopt = some N) :
    inverseShtC (shtC (shMatC N azi zen) w (f.map Complex.ofReal)) azi' zen' Nopt
      = (inverseSht (sht (shMat N azi zen) w f) azi' zen' Nopt).map fun g => g.map Complex.ofReal := by
  have hreal : ∀ F : Matrix (Fin ((N + 1) ^ 2)) (Fin S) ℝ, inverseSht F azi' zen' Nopt = .ok (shMat N azi' zen' * F) := by
    intro F
    have hsub : F.submatrix (Fin.castLE (le_refl ((N + 1) ^ 2))) id = F := by ext i j; rfl
    rcases hN with rfl | rfl
    · rw [inverseSht_none F azi' zen' N (C11_order_square N) le_rfl, hsub]
    · unfold inverseSht
      rw [if_neg (by simp)]
      exact (dif_pos (le_refl ((N + 1) ^ 2))).trans (by rw [hsub])
  rw [inverseShtC_eq _ azi' zen' Nopt hN, hreal]
  show Except.ok _ = Except.ok _
  congr 1
  have key : ∀ w : Fin Q → ℝ, shMatC N azi' zen' * shtC (shMatC N azi zen) (some w) (f.map Complex.ofReal)
      = (shMat N azi' zen' * sht (shMat N azi zen) (some w) f).map Complex.ofReal := by
    intro w
    ext p s
    simp only [Matrix.map_apply, Matrix.mul_apply, shtC_apply, sht_apply, Finset.mul_sum]
    push_cast
    rw [Finset.sum_comm]
    conv_rhs => rw [Finset.sum_comm]
    refine Finset.sum_congr rfl fun q _ => ?_
    have h1 : ∑ x : Fin ((N + 1) ^ 2), shMatC N azi' zen' p x * (starRingEnd ℂ) (shMatC N azi zen q x)
        = ∑ x : Fin ((N + 1) ^ 2), (shMat N azi' zen' p x : ℂ) * (shMat N azi zen q x : ℂ) := by
      have e1 := sum_acn N fun n m => sphHarm m n (azi' p) (zen' p) * (starRingEnd ℂ) (sphHarm m n (azi q) (zen q))
      have e2 := sum_acn N fun n m => (realSH n m (azi' p) (zen' p) : ℂ) * (realSH n m (azi q) (zen q) : ℂ)
      refine e1.trans (Eq.trans ?_ e2.symm)
      exact Finset.sum_congr rfl fun n _ => kernel_eq n _ _ _ _
    have e1 : ∀ x : Fin ((N + 1) ^ 2), shMatC N azi' zen' p x * ((starRingEnd ℂ) (shMatC N azi zen q x) * ((w q : ℂ) * (f q s : ℂ)))
        = (shMatC N azi' zen' p x * (starRingEnd ℂ) (shMatC N azi zen q x)) * ((w q : ℂ) * (f q s : ℂ)) := fun x => by ring
    have e2 : ∀ x : Fin ((N + 1) ^ 2), (shMat N azi' zen' p x : ℂ) * ((shMat N azi zen q x : ℂ) * ((w q : ℂ) * (f q s : ℂ)))
        = ((shMat N azi' zen' p x : ℂ) * (shMat N azi zen q x : ℂ)) * ((w q : ℂ) * (f q s : ℂ)) := fun x => by ring
    rw [Finset.sum_congr rfl fun x _ => e1 x, Finset.sum_congr rfl fun x _ => e2 x, ← Finset.sum_mul, ← Finset.sum_mul, h1]
  rcases w with _ | w
  · rw [shtC_none, sht_none]; exact key _
  · exact key w

example (azi zen : Fin 5 → ℝ) (f : Matrix (Fin 5) (Fin 1) ℝ) : inverseShtC (shtC (shMatC 2 azi zen) none (f.map Complex.ofReal)) azi zen none
    = (inverseSht (sht (shMat 2 azi zen) none f) azi zen none).map fun g => g.map Complex.ofReal :=
  C93_same_function azi zen none f azi zen none (.inl rfl)

/-! ### Matrix layout and least squares -/

/-- C93: `sh_matrix` with `'complex'` has one row per direction; its entry at ACN channel `n² + n + m` is `Y_n^m`. -/
theorem C93_matrix {Q N : ℕ} (azi zen : Fin Q → ℝ) (hQ : Q ≠ 1) :
    ∃ rows, shMatrix N (List.ofFn azi) (List.ofFn zen) .complex = .ok (.complex rows) ∧ rows.length = Q ∧
      ∀ (q : Fin Q) (n : ℕ) (m : ℤ), n ≤ N → |m| ≤ n → ∃ row, rows[q.val]? = some row ∧ row.length = (N + 1) ^ 2 ∧
        row[(acn n m).toNat]? = some (sphHarm m n (azi q) (zen q)) := by
  have hp : pairDirs (List.ofFn azi) (List.ofFn zen) = .ok ((List.ofFn azi).zip (List.ofFn zen)) := by
    unfold pairDirs
    split
    · rename_i z hz
      have := congrArg List.length hz
      simp at this; omega
    · rw [if_pos (by simp)]
  refine ⟨((List.ofFn azi).zip (List.ofFn zen)).map fun d => shRowC N d.1 d.2, ?_, by simp, ?_⟩
  · unfold shMatrix
    rw [hp]; rfl
  · intro q n m hn hm
    refine ⟨shRowC N (azi q) (zen q), ?_, ?_, ?_⟩
    · simp
    · rw [shRowC, List.length_map, acnPairs_length]
    · obtain ⟨k, hk, e, e'⟩ := acn_toNat hm
      rw [shRowC, List.getElem?_map, e, acnPairs_get N n k hn hk, e']
      rfl

example : ∃ rows, shMatrix 1 (List.ofFn ![0, 1]) (List.ofFn ![1, 2]) .complex = .ok (.complex rows) ∧ rows.length = 2 := by
  obtain ⟨rows, h, h', -⟩ := C93_matrix (N := 1) ![0, 1] ![1, 2] (by norm_num)
  exact ⟨rows, h, h'⟩

/-- Specification of `np.linalg.lstsq` for complex input (used in `sph.py` 187): a minimiser of the squared residual. External
routine. -/
def IsLstsqC {Q K S : ℕ} (A : Matrix (Fin Q) (Fin K) ℂ) (b : Matrix (Fin Q) (Fin S) ℂ) (x : Matrix (Fin K) (Fin S) ℂ) : Prop :=
  ∀ (s : Fin S) (y : Fin K → ℂ), ∑ q, ‖(A * x) q s - b q s‖ ^ 2 ≤ ∑ q, ‖A.mulVec y q - b q s‖ ^ 2

/-- C93: the least squares transform recovers the coefficients from samples on any grid that carries an exact quadrature of the
order. -/
theorem C93_lstsq {Q N S : ℕ} (lstsq : (K : ℕ) → Matrix (Fin Q) (Fin K) ℂ → Matrix (Fin Q) (Fin S) ℂ → Matrix (Fin K) (Fin S) ℂ)
    (hl : ∀ K A b, IsLstsqC A b (lstsq K A b)) (F : Matrix (Fin ((N + 1) ^ 2)) (Fin S) ℂ) (azi zen w : Fin Q → ℝ)
    (hG : (shMat N azi zen).transpose * (Matrix.diagonal w * shMat N azi zen) = 1) (Nopt : Option ℕ) (hN : Nopt = none ∨ Nopt = some N) :
    (inverseShtC F azi zen Nopt).map (fun f => shtLstsqC lstsq f N azi zen) = .ok F := by
  rw [inverseShtC_eq F azi zen Nopt hN]
  show Except.ok _ = Except.ok _
  congr 1
  show lstsq _ (shMatC N azi zen) (shMatC N azi zen * F) = F
  have hx := hl _ (shMatC N azi zen) (shMatC N azi zen * F)
  generalize lstsq _ (shMatC N azi zen) (shMatC N azi zen * F) = x at hx
  have e : shMatC N azi zen * x = shMatC N azi zen * F := by
    ext q s
    have h := hx s fun k => F k s
    have h0 : ∑ q, ‖(shMatC N azi zen).mulVec (fun k => F k s) q - (shMatC N azi zen * F) q s‖ ^ 2 = 0 := by
      refine Finset.sum_eq_zero fun q _ => ?_
      have : (shMatC N azi zen).mulVec (fun k => F k s) q = (shMatC N azi zen * F) q s := rfl
      rw [this, sub_self, norm_zero]; norm_num
    rw [h0] at h
    have h1 := (Finset.sum_eq_zero_iff_of_nonneg fun q _ => by positivity).1 (le_antisymm h (Finset.sum_nonneg fun q _ => by positivity)) q
      (Finset.mem_univ q)
    exact sub_eq_zero.1 (norm_eq_zero.1 (pow_eq_zero_iff two_ne_zero |>.1 h1))
  have hg := gramC azi zen w hG
  have hleft : ∀ M : Matrix (Fin ((N + 1) ^ 2)) (Fin S) ℂ,
      ((shMatC N azi zen).map (starRingEnd ℂ)).transpose * (Matrix.diagonal (fun q => (w q : ℂ)) * (shMatC N azi zen * M)) = M := by
    intro M
    rw [← Matrix.mul_assoc (Matrix.diagonal _), ← Matrix.mul_assoc, hg, Matrix.one_mul]
  rw [← hleft x, e, hleft]

theorem exists_lstsqC {Q K S : ℕ} (A : Matrix (Fin Q) (Fin K) ℂ) (b : Matrix (Fin Q) (Fin S) ℂ) : ∃ x, IsLstsqC A b x := by
  classical
  let L : EuclideanSpace ℂ (Fin K) →ₗ[ℂ] EuclideanSpace ℂ (Fin Q) := Matrix.toLpLin 2 2 A
  have hcol : ∀ s : Fin S, ∃ x : EuclideanSpace ℂ (Fin K),
      ∀ y : EuclideanSpace ℂ (Fin K), ‖L x - WithLp.toLp 2 (fun q => b q s)‖ ≤ ‖L y - WithLp.toLp 2 (fun q => b q s)‖ := by
    intro s
    set β : EuclideanSpace ℂ (Fin Q) := WithLp.toLp 2 (fun q => b q s)
    obtain ⟨x0, hx0⟩ : ∃ x0, L x0 = (LinearMap.range L).starProjection β :=
      LinearMap.mem_range.1 ((LinearMap.range L).starProjection_apply_mem β)
    refine ⟨x0, fun y => ?_⟩
    rw [norm_sub_rev, norm_sub_rev (L y), hx0, Submodule.starProjection_minimal]
    exact ciInf_le ⟨0, by rintro _ ⟨z, rfl⟩; exact norm_nonneg _⟩ (⟨L y, LinearMap.mem_range_self L y⟩ : LinearMap.range L)
  choose x hx using hcol
  refine ⟨fun k s => x s k, fun s y => ?_⟩
  have hn : ∀ y : Fin K → ℂ, ∑ q, ‖(A.mulVec y) q - b q s‖ ^ 2 = ‖L (WithLp.toLp 2 y) - WithLp.toLp 2 (fun q => b q s)‖ ^ 2 := by
    intro y
    rw [EuclideanSpace.norm_sq_eq]
    rfl
  have := hn fun k => x s k
  rw [hn]
  refine le_of_eq_of_le this ?_
  exact pow_le_pow_left₀ (norm_nonneg _) (hx s _) 2

example (F : Matrix (Fin ((1 + 1) ^ 2)) (Fin 2) ℂ) : ∃ (azi zen : Fin 8 → ℝ)
    (lstsq : (K : ℕ) → Matrix (Fin 8) (Fin K) ℂ → Matrix (Fin 8) (Fin 2) ℂ → Matrix (Fin K) (Fin 2) ℂ),
    (inverseShtC F azi zen none).map (fun f => shtLstsqC lstsq f 1 azi zen) = .ok F := by
  obtain ⟨azi, zen, hd⟩ := cube_design
  choose l hl using fun (K : ℕ) (A : Matrix (Fin 8) (Fin K) ℂ) (b : Matrix (Fin 8) (Fin 2) ℂ) => exists_lstsqC A b
  exact ⟨azi, zen, l, C93_lstsq l hl F azi zen _ (design_wgram hd (by norm_num)) none (.inl rfl)⟩

/-- `C93_gauss`: the Gauss grid of order one. -/
example (F : Matrix (Fin ((1 + 1) ^ 2)) (Fin 2) ℂ) : ∃ azi zen w : Fin 8 → ℝ,
    (inverseShtC F azi zen none).map (shtC (shMatC 1 azi zen) (some w)) = .ok F := by
  obtain ⟨azi, zen, hg⟩ := gauss_one_grid
  exact ⟨azi, zen, _, C93_gauss _ 1 2 isGauss_two F azi zen _ hg none (.inl rfl)⟩

end Verif.Props
